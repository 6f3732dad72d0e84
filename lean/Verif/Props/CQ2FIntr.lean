import Verif.Props.CFixedRankIntr

/-!
# C37, C46, C78 for the complex two-factor fixed-rank manifold
-/

set_option linter.unusedSectionVars false
set_option linter.unusedVariables false

namespace Verif.CFixed

open Matrix Verif.Elem Verif.CMat Verif.CIntr
open Verif.Intr (pairs rest buf dot mem_rest idx_of_rest index_exists index_unique nodup_rest length_rest dot_append sum_rest)
open Verif.Q2F (square Pair mem_square nodup_square length_square idx_of_square sum_sq IsPt IsHor rep metric Chol proj C76_metric C76_projection C76_horizontal_unique)
open Verif.CStiefel (flat unflat rowSigns scaleRows ip_rsmul_left ip_rsmul_right conj_rsmul)
open Verif.Dense (cx)

variable {m n r : ℕ}

/-! ## The loops -/

theorem mem_writesG {c : Nat → ℝ} {a : Nat} {v : ℝ} : (a, v) ∈ writesG m r c ↔
    (∃ i j k, (square r)[k]? = some (i, j) ∧ ((a = 2 * (j + i * m) ∧ v = c (2 * k) / 2) ∨ (a = 2 * (j + i * m) + 1 ∧ v = c (2 * k + 1) / 2))) ∨
    (∃ i j k, (rest m r)[k]? = some (i, j) ∧ ((a = 2 * (j + i * m) ∧ v = c (2 * (square r).length + 2 * k)) ∨ (a = 2 * (j + i * m) + 1 ∧ v = c (2 * (square r).length + 2 * k + 1)))) := by
  simp only [writesG, List.mem_append, List.mem_flatMap, List.mem_cons, List.not_mem_nil, or_false, Prod.mk.injEq, Prod.exists, List.mk_mem_zipIdx_iff_getElem?]

theorem mem_writesH2 {c : Nat → ℝ} {a : Nat} {v : ℝ} : (a, v) ∈ writesH2 m n r c ↔
    (∃ i j k, (square r)[k]? = some (i, j) ∧ ((a = 2 * (i + j * n) ∧ v = c (2 * k) / 2) ∨ (a = 2 * (i + j * n) + 1 ∧ v = -(c (2 * k + 1) / 2)))) ∨
    (∃ i j k, (rest n r)[k]? = some (i, j) ∧ ((a = 2 * (j + i * n) ∧ v = c (2 * (square r).length + 2 * (rest m r).length + 2 * k)) ∨
      (a = 2 * (j + i * n) + 1 ∧ v = c (2 * (square r).length + 2 * (rest m r).length + 2 * k + 1)))) := by
  simp only [writesH2, List.mem_append, List.mem_flatMap, List.mem_cons, List.not_mem_nil, or_false, Prod.mk.injEq, Prod.exists, List.mk_mem_zipIdx_iff_getElem?]

theorem writesG_at {c : Nat → ℝ} (hm : r ≤ m) {a b e : Nat} {v : ℝ} (hb : b < m) (ha : a < r) (he : e ≤ 1) (hv : (2 * (b + a * m) + e, v) ∈ writesG m r c) :
    (∃ k, (square r)[k]? = some (a, b) ∧ v = c (2 * k + e) / 2) ∨ (∃ k, (rest m r)[k]? = some (a, b) ∧ v = c (2 * (square r).length + 2 * k + e)) := by
  rcases mem_writesG.mp hv with ⟨i, j, k, hk, ⟨h, h'⟩ | ⟨h, h'⟩⟩ | ⟨i, j, k, hk, ⟨h, h'⟩ | ⟨h, h'⟩⟩
  · have := idx_of_square hk
    obtain rfl : e = 0 := by omega
    obtain ⟨rfl, rfl⟩ := colMajor_inj (by omega) (by omega) (by omega : b + a * m = j + i * m)
    exact Or.inl ⟨k, hk, h'⟩
  · have := idx_of_square hk
    obtain rfl : e = 1 := by omega
    obtain ⟨rfl, rfl⟩ := colMajor_inj (by omega) (by omega) (by omega : b + a * m = j + i * m)
    exact Or.inl ⟨k, hk, h'⟩
  · have := idx_of_rest hk
    obtain rfl : e = 0 := by omega
    obtain ⟨rfl, rfl⟩ := colMajor_inj (by omega) (by omega) (by omega : b + a * m = j + i * m)
    exact Or.inr ⟨k, hk, h'⟩
  · have := idx_of_rest hk
    obtain rfl : e = 1 := by omega
    obtain ⟨rfl, rfl⟩ := colMajor_inj (by omega) (by omega) (by omega : b + a * m = j + i * m)
    exact Or.inr ⟨k, hk, h'⟩

theorem writesH2_at {c : Nat → ℝ} (hn : r ≤ n) {a b e : Nat} {v : ℝ} (hb : b < n) (ha : a < r) (he : e ≤ 1) (hv : (2 * (b + a * n) + e, v) ∈ writesH2 m n r c) :
    (∃ k, (square r)[k]? = some (b, a) ∧ v = if e = 1 then -(c (2 * k + 1) / 2) else c (2 * k) / 2) ∨
    (∃ k, (rest n r)[k]? = some (a, b) ∧ v = c (2 * (square r).length + 2 * (rest m r).length + 2 * k + e)) := by
  rcases mem_writesH2.mp hv with ⟨i, j, k, hk, ⟨h, h'⟩ | ⟨h, h'⟩⟩ | ⟨i, j, k, hk, ⟨h, h'⟩ | ⟨h, h'⟩⟩
  · have := idx_of_square hk
    obtain rfl : e = 0 := by omega
    obtain ⟨rfl, rfl⟩ := colMajor_inj (by omega) (by omega) (by omega : b + a * n = i + j * n)
    exact Or.inl ⟨k, hk, by simpa using h'⟩
  · have := idx_of_square hk
    obtain rfl : e = 1 := by omega
    obtain ⟨rfl, rfl⟩ := colMajor_inj (by omega) (by omega) (by omega : b + a * n = i + j * n)
    exact Or.inl ⟨k, hk, by simpa using h'⟩
  · have := idx_of_rest hk
    obtain rfl : e = 0 := by omega
    obtain ⟨rfl, rfl⟩ := colMajor_inj (by omega) (by omega) (by omega : b + a * n = j + i * n)
    exact Or.inr ⟨k, hk, h'⟩
  · have := idx_of_rest hk
    obtain rfl : e = 1 := by omega
    obtain ⟨rfl, rfl⟩ := colMajor_inj (by omega) (by omega) (by omega : b + a * n = j + i * n)
    exact Or.inr ⟨k, hk, h'⟩

theorem writesG_top (hm : r ≤ m) (jk c : Nat → ℝ) {i j k : Nat} (hk : (square r)[k]? = some (i, j)) : cx (writeAll jk (writesG m r c)) (j + i * m) = ⟨c (2 * k) / 2, c (2 * k + 1) / 2⟩ := by
  have hij := idx_of_square hk
  have key : ∀ e ≤ 1, ∀ v, (2 * (j + i * m) + e, v) ∈ writesG m r c → v = c (2 * k + e) / 2 := by
    intro e he v hv
    rcases writesG_at hm (by omega) (by omega) he hv with ⟨k', hk', h⟩ | ⟨k', hk', h⟩
    · rw [h, index_unique (nodup_square r) hk' hk]
    · have := idx_of_rest hk'; omega
  apply Complex.ext
  · exact writeAll_of_mem _ _ _ _ (mem_writesG.mpr (Or.inl ⟨i, j, k, hk, Or.inl ⟨rfl, rfl⟩⟩)) (key 0 (by omega))
  · exact writeAll_of_mem _ _ _ _ (mem_writesG.mpr (Or.inl ⟨i, j, k, hk, Or.inr ⟨rfl, rfl⟩⟩)) (key 1 (by omega))

theorem writesG_rest (hm : r ≤ m) (jk c : Nat → ℝ) {i j k : Nat} (hk : (rest m r)[k]? = some (i, j)) :
    cx (writeAll jk (writesG m r c)) (j + i * m) = ⟨c (2 * (square r).length + 2 * k), c (2 * (square r).length + 2 * k + 1)⟩ := by
  have hij := idx_of_rest hk
  have key : ∀ e ≤ 1, ∀ v, (2 * (j + i * m) + e, v) ∈ writesG m r c → v = c (2 * (square r).length + 2 * k + e) := by
    intro e he v hv
    rcases writesG_at hm (by omega) (by omega) he hv with ⟨k', hk', h⟩ | ⟨k', hk', h⟩
    · have := idx_of_square hk'; omega
    · rw [h, index_unique (nodup_rest m r) hk' hk]
  apply Complex.ext
  · exact writeAll_of_mem _ _ _ _ (mem_writesG.mpr (Or.inr ⟨i, j, k, hk, Or.inl ⟨rfl, rfl⟩⟩)) (key 0 (by omega))
  · exact writeAll_of_mem _ _ _ _ (mem_writesG.mpr (Or.inr ⟨i, j, k, hk, Or.inr ⟨rfl, rfl⟩⟩)) (key 1 (by omega))

theorem writesH2_top (hn : r ≤ n) (jk c : Nat → ℝ) {i j k : Nat} (hk : (square r)[k]? = some (i, j)) :
    cx (writeAll jk (writesH2 m n r c)) (i + j * n) = ⟨c (2 * k) / 2, -(c (2 * k + 1) / 2)⟩ := by
  have hij := idx_of_square hk
  have key : ∀ e ≤ 1, ∀ v, (2 * (i + j * n) + e, v) ∈ writesH2 m n r c → v = if e = 1 then -(c (2 * k + 1) / 2) else c (2 * k) / 2 := by
    intro e he v hv
    rcases writesH2_at hn (by omega) (by omega) he hv with ⟨k', hk', h⟩ | ⟨k', hk', h⟩
    · rw [h, index_unique (nodup_square r) hk' hk]
    · have := idx_of_rest hk'; omega
  apply Complex.ext
  · exact writeAll_of_mem _ _ _ _ (mem_writesH2.mpr (Or.inl ⟨i, j, k, hk, Or.inl ⟨rfl, rfl⟩⟩)) fun v hv => by simpa using key 0 (by omega) v hv
  · exact writeAll_of_mem _ _ _ _ (mem_writesH2.mpr (Or.inl ⟨i, j, k, hk, Or.inr ⟨rfl, rfl⟩⟩)) fun v hv => by simpa using key 1 (by omega) v hv

theorem writesH2_rest (hn : r ≤ n) (jk c : Nat → ℝ) {i j k : Nat} (hk : (rest n r)[k]? = some (i, j)) :
    cx (writeAll jk (writesH2 m n r c)) (j + i * n) = ⟨c (2 * (square r).length + 2 * (rest m r).length + 2 * k), c (2 * (square r).length + 2 * (rest m r).length + 2 * k + 1)⟩ := by
  have hij := idx_of_rest hk
  have key : ∀ e ≤ 1, ∀ v, (2 * (j + i * n) + e, v) ∈ writesH2 m n r c → v = c (2 * (square r).length + 2 * (rest m r).length + 2 * k + e) := by
    intro e he v hv
    rcases writesH2_at hn (by omega) (by omega) he hv with ⟨k', hk', h⟩ | ⟨k', hk', h⟩
    · have := idx_of_square hk'; omega
    · rw [h, index_unique (nodup_rest n r) hk' hk]
  apply Complex.ext
  · exact writeAll_of_mem _ _ _ _ (mem_writesH2.mpr (Or.inr ⟨i, j, k, hk, Or.inl ⟨rfl, rfl⟩⟩)) (key 0 (by omega))
  · exact writeAll_of_mem _ _ _ _ (mem_writesH2.mpr (Or.inr ⟨i, j, k, hk, Or.inr ⟨rfl, rfl⟩⟩)) (key 1 (by omega))

theorem loops2_length (tG tH : Nat → ℂ) : (intrLoops2 m n r tG tH).length = 2 * (square r).length + 2 * (rest m r).length + 2 * (rest n r).length := by
  simp only [intrLoops2, List.length_append, length_flat2]

theorem loops2_top (tG tH : Nat → ℂ) {i j k : Nat} (hk : (square r)[k]? = some (i, j)) :
    buf (intrLoops2 m n r tG tH) (2 * k) = (tG (j + i * m)).re + (tH (i + j * n)).re ∧ buf (intrLoops2 m n r tG tH) (2 * k + 1) = (tG (j + i * m)).im - (tH (i + j * n)).im := by
  have h := getElem?_flat2 (square r) (fun q => (tG (q.2 + q.1 * m)).re + (tH (q.1 + q.2 * n)).re) (fun q => (tG (q.2 + q.1 * m)).im - (tH (q.1 + q.2 * n)).im) hk
  exact ⟨buf_get (get_start h.1), buf_get (get_start h.2)⟩

theorem loops2_restG (tG tH : Nat → ℂ) {i j k : Nat} (hk : (rest m r)[k]? = some (i, j)) :
    buf (intrLoops2 m n r tG tH) (2 * (square r).length + 2 * k) = (tG (j + i * m)).re ∧ buf (intrLoops2 m n r tG tH) (2 * (square r).length + 2 * k + 1) = (tG (j + i * m)).im := by
  have h := getElem?_flat2 (rest m r) (fun q => (tG (q.2 + q.1 * m)).re) (fun q => (tG (q.2 + q.1 * m)).im) hk
  constructor
  · have := get_mid (a := (square r).flatMap (fun q => [(tG (q.2 + q.1 * m)).re + (tH (q.1 + q.2 * n)).re, (tG (q.2 + q.1 * m)).im - (tH (q.1 + q.2 * n)).im]))
      (c := (rest n r).flatMap (fun q => [(tH (q.2 + q.1 * n)).re, (tH (q.2 + q.1 * n)).im])) h.1
    rw [length_flat2] at this
    exact buf_get this
  · have := get_mid (a := (square r).flatMap (fun q => [(tG (q.2 + q.1 * m)).re + (tH (q.1 + q.2 * n)).re, (tG (q.2 + q.1 * m)).im - (tH (q.1 + q.2 * n)).im]))
      (c := (rest n r).flatMap (fun q => [(tH (q.2 + q.1 * n)).re, (tH (q.2 + q.1 * n)).im])) h.2
    rw [length_flat2] at this
    exact buf_get this

theorem loops2_restH (tG tH : Nat → ℂ) {i j k : Nat} (hk : (rest n r)[k]? = some (i, j)) :
    buf (intrLoops2 m n r tG tH) (2 * (square r).length + 2 * (rest m r).length + 2 * k) = (tH (j + i * n)).re ∧
    buf (intrLoops2 m n r tG tH) (2 * (square r).length + 2 * (rest m r).length + 2 * k + 1) = (tH (j + i * n)).im := by
  have h := getElem?_flat2 (rest n r) (fun q => (tH (q.2 + q.1 * n)).re) (fun q => (tH (q.2 + q.1 * n)).im) hk
  constructor
  · have := get_end (a := (square r).flatMap (fun q => [(tG (q.2 + q.1 * m)).re + (tH (q.1 + q.2 * n)).re, (tG (q.2 + q.1 * m)).im - (tH (q.1 + q.2 * n)).im]))
      (b := (rest m r).flatMap (fun q => [(tG (q.2 + q.1 * m)).re, (tG (q.2 + q.1 * m)).im])) h.1
    rw [length_flat2, length_flat2] at this
    exact buf_get this
  · have := get_end (a := (square r).flatMap (fun q => [(tG (q.2 + q.1 * m)).re + (tH (q.1 + q.2 * n)).re, (tG (q.2 + q.1 * m)).im - (tH (q.1 + q.2 * n)).im]))
      (b := (rest m r).flatMap (fun q => [(tG (q.2 + q.1 * m)).re, (tG (q.2 + q.1 * m)).im])) h.2
    rw [length_flat2, length_flat2] at this
    exact buf_get this

theorem loops2_intr_extr (hm : r ≤ m) (hn : r ≤ n) (jG jH : Nat → ℝ) (c : List ℝ) (hc : c.length = 2 * (square r).length + 2 * (rest m r).length + 2 * (rest n r).length) :
    intrLoops2 m n r (flat (unflat m r (writeAll jG (writesG m r (buf c))))) (flat (unflat n r (writeAll jH (writesH2 m n r (buf c))))) = c := by
  refine list_ext_buf (by rw [loops2_length, hc]) fun k hk => ?_
  rw [hc] at hk
  by_cases h1 : k < 2 * (square r).length
  · have hk' : k / 2 < (square r).length := by omega
    rcases hq : (square r)[k / 2] with ⟨i, j⟩
    have hg : (square r)[k / 2]? = some (i, j) := by rw [List.getElem?_eq_getElem hk', hq]
    have hij := idx_of_square hg
    have e : k = 2 * (k / 2) ∨ k = 2 * (k / 2) + 1 := by omega
    generalize k / 2 = l at hg e
    rcases e with rfl | rfl
    · rw [(loops2_top _ _ hg).1, CIntr.flat_unflat _ (by omega) (by omega), CIntr.flat_unflat _ (by omega) (by omega), writesG_top hm _ _ hg, writesH2_top hn _ _ hg]
      simp only []; ring
    · rw [(loops2_top _ _ hg).2, CIntr.flat_unflat _ (by omega) (by omega), CIntr.flat_unflat _ (by omega) (by omega), writesG_top hm _ _ hg, writesH2_top hn _ _ hg]
      simp only []; ring
  by_cases h2 : k < 2 * (square r).length + 2 * (rest m r).length
  · have hk' : (k - 2 * (square r).length) / 2 < (rest m r).length := by omega
    rcases hq : (rest m r)[(k - 2 * (square r).length) / 2] with ⟨i, j⟩
    have hg : (rest m r)[(k - 2 * (square r).length) / 2]? = some (i, j) := by rw [List.getElem?_eq_getElem hk', hq]
    have hij := idx_of_rest hg
    have e : k = 2 * (square r).length + 2 * ((k - 2 * (square r).length) / 2) ∨ k = 2 * (square r).length + 2 * ((k - 2 * (square r).length) / 2) + 1 := by omega
    generalize (k - 2 * (square r).length) / 2 = l at hg e
    rcases e with rfl | rfl
    · rw [(loops2_restG _ _ hg).1, CIntr.flat_unflat _ (by omega) (by omega), writesG_rest hm _ _ hg]
    · rw [(loops2_restG _ _ hg).2, CIntr.flat_unflat _ (by omega) (by omega), writesG_rest hm _ _ hg]
  · have hk' : (k - (2 * (square r).length + 2 * (rest m r).length)) / 2 < (rest n r).length := by omega
    rcases hq : (rest n r)[(k - (2 * (square r).length + 2 * (rest m r).length)) / 2] with ⟨i, j⟩
    have hg : (rest n r)[(k - (2 * (square r).length + 2 * (rest m r).length)) / 2]? = some (i, j) := by rw [List.getElem?_eq_getElem hk', hq]
    have hij := idx_of_rest hg
    have e : k = 2 * (square r).length + 2 * (rest m r).length + 2 * ((k - (2 * (square r).length + 2 * (rest m r).length)) / 2) ∨
      k = 2 * (square r).length + 2 * (rest m r).length + 2 * ((k - (2 * (square r).length + 2 * (rest m r).length)) / 2) + 1 := by omega
    generalize (k - (2 * (square r).length + 2 * (rest m r).length)) / 2 = l at hg e
    rcases e with rfl | rfl
    · rw [(loops2_restH _ _ hg).1, CIntr.flat_unflat _ (by omega) (by omega), writesH2_rest hn _ _ hg]
    · rw [(loops2_restH _ _ hg).2, CIntr.flat_unflat _ (by omega) (by omega), writesH2_rest hn _ _ hg]

/-- The squares on top are conjugate transposes of each other. -/
def TopConj (A : Matrix (Fin m) (Fin r) ℂ) (B : Matrix (Fin n) (Fin r) ℂ) : Prop := ∀ i j, i < r → j < r → flat A (j + i * m) = star (flat B (i + j * n))

theorem topConj_iff (hm : r ≤ m) (hn : r ≤ n) (A : Matrix (Fin m) (Fin r) ℂ) (B : Matrix (Fin n) (Fin r) ℂ) :
    TopConj A B ↔ (topI m r)ᴴ * A = ((topI n r)ᴴ * B)ᴴ := by
  constructor
  · intro k
    ext ⟨j, hj⟩ ⟨i, hi⟩
    have := k i j hi hj
    rw [CIntr.flat_apply _ (by omega) hi, CIntr.flat_apply _ (by omega) hj] at this
    rw [conjTranspose_apply, top_mul _ hm, top_mul _ hn]
    exact this
  · intro k i j hi hj
    have := congrFun (congrFun k ⟨j, hj⟩) ⟨i, hi⟩
    rw [conjTranspose_apply, top_mul _ hm, top_mul _ hn] at this
    rw [CIntr.flat_apply _ (by omega) hi, CIntr.flat_apply _ (by omega) hj]
    exact this

theorem loops2_extr_intr (hm : r ≤ m) (hn : r ≤ n) (jG jH : Nat → ℝ) {A : Matrix (Fin m) (Fin r) ℂ} {B : Matrix (Fin n) (Fin r) ℂ} (h : TopConj A B) :
    unflat m r (writeAll jG (writesG m r (buf (intrLoops2 m n r (flat A) (flat B))))) = A ∧ unflat n r (writeAll jH (writesH2 m n r (buf (intrLoops2 m n r (flat A) (flat B))))) = B := by
  constructor
  · ext ⟨j, hj⟩ ⟨i, hi⟩
    show cx (writeAll jG _) (j + i * m) = _
    rw [← CIntr.flat_apply A hj hi]
    by_cases hjr : j < r
    · obtain ⟨k, hk⟩ := index_exists (mem_square.mpr ⟨hi, hjr⟩)
      rw [writesG_top hm _ _ hk, (loops2_top _ _ hk).1, (loops2_top _ _ hk).2, h i j hi hjr]
      apply Complex.ext
      · simp only [Complex.star_def, Complex.conj_re]; ring
      · simp only [Complex.star_def, Complex.conj_im]; ring
    · obtain ⟨k, hk⟩ := index_exists (mem_rest.mpr ⟨hi, not_lt.mp hjr, hj⟩)
      rw [writesG_rest hm _ _ hk, (loops2_restG _ _ hk).1, (loops2_restG _ _ hk).2]
  · ext ⟨i, hi⟩ ⟨j, hj⟩
    show cx (writeAll jH _) (i + j * n) = _
    rw [← CIntr.flat_apply B hi hj]
    by_cases hir : i < r
    · obtain ⟨k, hk⟩ := index_exists (mem_square.mpr ⟨hir, hj⟩)
      rw [writesH2_top hn _ _ hk, (loops2_top _ _ hk).1, (loops2_top _ _ hk).2, h i j hir hj]
      apply Complex.ext
      · simp only [Complex.star_def, Complex.conj_re]; ring
      · simp only [Complex.star_def, Complex.conj_im]; ring
    · obtain ⟨k, hk⟩ := index_exists (mem_rest.mpr ⟨hj, not_lt.mp hir, hi⟩)
      rw [writesH2_rest hn _ _ hk, (loops2_restH _ _ hk).1, (loops2_restH _ _ hk).2]

theorem loops2_conj (hm : r ≤ m) (hn : r ≤ n) (jG jH c : Nat → ℝ) : TopConj (unflat m r (writeAll jG (writesG m r c))) (unflat n r (writeAll jH (writesH2 m n r c))) := by
  intro i j hi hj
  obtain ⟨k, hk⟩ := index_exists (mem_square.mpr ⟨hi, hj⟩)
  rw [CIntr.flat_unflat _ (by omega) hi, CIntr.flat_unflat _ (by omega) hj, writesG_top hm _ _ hk, writesH2_top hn _ _ hk]
  apply Complex.ext
  · simp only [Complex.star_def, Complex.conj_re]
  · simp only [Complex.star_def, Complex.conj_im]; ring

/-- The block matrix of two coordinate blocks. -/
def blk (A : Matrix (Fin m) (Fin r) ℂ) (B : Matrix (Fin n) (Fin r) ℂ) : Matrix (Fin m) (Fin n) ℂ := A * (topI n r)ᴴ + topI m r * Bᴴ

theorem ip_blk (hm : r ≤ m) (hn : r ≤ n) (A A' : Matrix (Fin m) (Fin r) ℂ) (B B' : Matrix (Fin n) (Fin r) ℂ) : ip (blk A B) (blk A' B') =
    ip ((topI m r)ᴴ * A + ((topI n r)ᴴ * B)ᴴ) ((topI m r)ᴴ * A' + ((topI n r)ᴴ * B')ᴴ) + restSum A A' + restSum B B' := by
  have tm := topI_orth hm
  have tn := topI_orth hn
  have e1 : ip (A * (topI n r)ᴴ) (A' * (topI n r)ᴴ) = ip A A' := by
    rw [ip_mul_right, conjTranspose_conjTranspose, Matrix.mul_assoc, tn, Matrix.mul_one]
  have e2 : ip (topI m r * Bᴴ) (topI m r * B'ᴴ) = ip B B' := by
    rw [ip_mul_left, ← Matrix.mul_assoc, tm, Matrix.one_mul, ip_conjTranspose]
  have e3 : ∀ (A : Matrix (Fin m) (Fin r) ℂ) (B : Matrix (Fin n) (Fin r) ℂ), ip (A * (topI n r)ᴴ) (topI m r * Bᴴ) = ip ((topI m r)ᴴ * A) (((topI n r)ᴴ * B)ᴴ) := by
    intro A B
    rw [ip_mul_right, conjTranspose_conjTranspose, Matrix.mul_assoc, ip_mul_left', conjTranspose_mul, conjTranspose_conjTranspose]
  have e4 : ip (topI m r * Bᴴ) (A' * (topI n r)ᴴ) = ip (((topI n r)ᴴ * B)ᴴ) ((topI m r)ᴴ * A') := by rw [ip_comm, e3, ip_comm]
  rw [blk, blk, ip_add_left, ip_add_right, ip_add_right, e1, e2, e3, e4, ip_top hm, ip_top hn, ip_add_left, ip_add_right, ip_add_right, ip_conjTranspose]
  ring

theorem loops2_dot (hm : r ≤ m) (hn : r ≤ n) (A A' : Matrix (Fin m) (Fin r) ℂ) (B B' : Matrix (Fin n) (Fin r) ℂ) :
    dot (intrLoops2 m n r (flat A) (flat B)) (intrLoops2 m n r (flat A') (flat B')) = ip (blk A B) (blk A' B') := by
  rw [ip_blk hm hn, intrLoops2, intrLoops2, dot_append (by simp only [List.length_append, length_flat2]), dot_append (by simp only [length_flat2]), dot_flat2, dot_flat2, dot_flat2, sum_sq,
    ip_range]
  congr 2
  refine Finset.sum_congr rfl fun i hi => Finset.sum_congr rfl fun j hj => ?_
  have hi := Finset.mem_range.mp hi
  have hj := Finset.mem_range.mp hj
  have e : ∀ (A : Matrix (Fin m) (Fin r) ℂ) (B : Matrix (Fin n) (Fin r) ℂ), flat ((topI m r)ᴴ * A + ((topI n r)ᴴ * B)ᴴ) (j + i * r) = flat A (j + i * m) + star (flat B (i + j * n)) := by
    intro A B
    rw [CIntr.flat_apply _ hj hi, Matrix.add_apply, conjTranspose_apply, top_mul _ hm, top_mul _ hn, CIntr.flat_apply _ (by omega) hi, CIntr.flat_apply _ (by omega) hj]
  rw [e, e, rp]
  simp only [Complex.add_re, Complex.add_im, Complex.star_def, Complex.conj_re, Complex.conj_im]
  ring

/-! ## The frame -/

/-- Householder data of both factors. -/
structure IsHou (x : Pair ℂ (Fin m) (Fin n) (Fin r)) (hG : Hou m r) (hH : Hou n r) : Prop where
  G : IsHHR x.G hG
  H : IsHHR x.H hH

variable {x : Pair ℂ (Fin m) (Fin n) (Fin r)} {hG : Hou m r} {hH : Hou n r}

theorem rep_blk2 (hm : r ≤ m) (hn : r ≤ n) (hh : IsHou x hG hH) (η : Pair ℂ (Fin m) (Fin n) (Fin r)) :
    rep x η = orthO hG * blk (blkOf hG (lowL hH.R) η.G) (blkOf hH (lowL hG.R) η.H) * (orthO hH)ᴴ := by
  have eG := hhr_eq hm hh.G
  have eH := hhr_eq hn hh.H
  have oG := orthO_orth' hh.G
  have oH := orthO_orth' hh.H
  unfold rep blk
  rw [blkOf_eq, blkOf_eq]
  conv_lhs => rw [eG, eH]
  simp only [conjTranspose_mul, conjTranspose_conjTranspose, Matrix.mul_add, Matrix.add_mul]
  congr 1
  · simp only [← Matrix.mul_assoc]
    rw [oG, Matrix.one_mul]
  · simp only [Matrix.mul_assoc]
    rw [oH, Matrix.mul_one]

theorem pt_low (hm : r ≤ m) (hn : r ≤ n) (hx : IsPt x) (hh : IsHou x hG hH) : IsUnit (lowL hG.R).det ∧ IsUnit (lowL hH.R).det := ⟨low_unit hm hh.G hx.G, low_unit hn hh.H hx.H⟩

theorem hor_blk (hm : r ≤ m) (hn : r ≤ n) (hx : IsPt x) (hh : IsHou x hG hH) (η : Pair ℂ (Fin m) (Fin n) (Fin r)) : IsHor x η ↔
    TopConj (blkOf hG (lowL hH.R) η.G) (blkOf hH (lowL hG.R) η.H) := by
  obtain ⟨uG, uH⟩ := pt_low hm hn hx hh
  have eG := hhr_eq hm hh.G
  have eH := hhr_eq hn hh.H
  have e1 : x.Gᴴ * η.G * (x.Hᴴ * x.H) = lowL hG.R * ((topI m r)ᴴ * blkOf hG (lowL hH.R) η.G) * (lowL hH.R)ᴴ := by
    rw [← gram_low hn hh.H, blkOf_eq]
    conv_lhs => rw [eG]
    simp only [conjTranspose_mul, conjTranspose_conjTranspose, Matrix.mul_assoc]
  have e2 : x.Gᴴ * x.G * (η.Hᴴ * x.H) = lowL hG.R * ((topI n r)ᴴ * blkOf hH (lowL hG.R) η.H)ᴴ * (lowL hH.R)ᴴ := by
    rw [← gram_low hm hh.G, blkOf_eq]
    conv_lhs => rw [eH]
    simp only [conjTranspose_mul, conjTranspose_conjTranspose, Matrix.mul_assoc]
  rw [topConj_iff hm hn]
  unfold IsHor
  rw [e1, e2]
  constructor
  · intro e
    have uH' : IsUnit ((lowL hH.R)ᴴ).det := by rw [det_conjTranspose]; exact uH.star
    have := congrArg (fun M => (lowL hG.R)⁻¹ * (M * ((lowL hH.R)ᴴ)⁻¹)) e
    simpa only [Matrix.mul_assoc, mul_nonsing_inv _ uH', Matrix.mul_one, nonsing_inv_mul_cancel_left _ _ uG] using this
  · intro e; rw [e]

theorem len2 (hm : r ≤ m) (hn : r ≤ n) : 2 * (square r).length + 2 * (rest m r).length + 2 * (rest n r).length = 2 * (m + n - r) * r := by
  rw [length_square, length_rest, length_rest]
  obtain ⟨a, rfl⟩ := Nat.exists_eq_add_of_le hm
  obtain ⟨b, rfl⟩ := Nat.exists_eq_add_of_le hn
  rw [Nat.add_sub_cancel_left, Nat.add_sub_cancel_left, show r + a + (r + b) - r = r + a + b by omega]
  ring

/-! ## C37, C46, C78 -/

/-- **C37 (complex two-factor fixed rank, dimension).** `2 (m + n - r) r` coordinates. -/
theorem C37_ctwo_factor_dim (hm : r ≤ m) (hn : r ≤ n) (hG : Hou m r) (hH : Hou n r) (η : Pair ℂ (Fin m) (Fin n) (Fin r)) : (intr2 hG hH η).length = 2 * (m + n - r) * r := by
  rw [intr2, loops2_length, len2 hm hn]

/-- **C37 (complex two-factor fixed rank, the triangular factors).** The triangular matrices built from the Householder factorisations are factors of the Gram matrices; a real diagonal becomes
non-negative. -/
theorem C37_ctwo_factor_chol (hm : r ≤ m) (hn : r ≤ n) (hh : IsHou x hG hH) : Chol x (lowL hG.R) (lowL hH.R) ∧
    (∀ i j, i < j → lowL hG.R i j = 0) ∧ (∀ i j, i < j → lowL hH.R i j = 0) ∧
    (∀ i : Fin r, (hG.R ⟨i, by omega⟩ i).im = 0 → 0 ≤ (lowL hG.R i i).re ∧ (lowL hG.R i i).im = 0) ∧
    (∀ i : Fin r, (hH.R ⟨i, by omega⟩ i).im = 0 → 0 ≤ (lowL hH.R i i).re ∧ (lowL hH.R i i).im = 0) := by
  have pos : ∀ {N : Nat} (hN : r ≤ N) (R : Matrix (Fin N) (Fin r) ℂ) (i : Fin r), (R ⟨i, by omega⟩ i).im = 0 → 0 ≤ (lowL R i i).re ∧ (lowL R i i).im = 0 := by
    intro N hN R i hi
    have e : flat R (i.1 + N * i.1) = R ⟨i, by omega⟩ i := by rw [Nat.mul_comm, CIntr.flat_apply R (by omega) i.2]
    unfold lowL
    rw [if_neg (lt_irrefl i), e]
    by_cases hs : (R ⟨i, by omega⟩ i).re < 0
    · rw [if_pos hs]; simp [hi, hs.le]
    · rw [if_neg hs]; simp [hi, not_lt.mp hs]
  exact ⟨⟨gram_low hm hh.G, gram_low hn hh.H⟩, fun i j hij => if_pos hij, fun i j hij => if_pos hij, pos hm _, pos hn _⟩

/-- **C37 (complex two-factor fixed rank, isometry).** The inner product of the coordinates is the metric, for all pairs. -/
theorem C37_ctwo_factor_isometry (hm : r ≤ m) (hn : r ≤ n) (hh : IsHou x hG hH) (η ξ : Pair ℂ (Fin m) (Fin n) (Fin r)) :
    dot (intr2 hG hH η) (intr2 hG hH ξ) = metric x η ξ := by
  rw [intr2, intr2, loops2_dot hm hn, C76_metric, rep_blk2 hm hn hh, rep_blk2 hm hn hh, ip_unitary_right (orthO_orth hh.H), ip_unitary (orthO_orth hh.G)]

/-- **C37 (complex two-factor fixed rank, intrinsic → extrinsic → intrinsic).** The result is horizontal. -/
theorem C37_ctwo_factor_intr_extr (hm : r ≤ m) (hn : r ≤ n) (hx : IsPt x) (hh : IsHou x hG hH) (jG jH : Nat → ℝ) (c : List ℝ) (hc : c.length = 2 * (m + n - r) * r) :
    intr2 hG hH (extr2 jG jH hG hH c) = c ∧ IsHor x (extr2 jG jH hG hH c) := by
  obtain ⟨uG, uH⟩ := pt_low hm hn hx hh
  constructor
  · rw [intr2, extr2, blkOf_back hh.G uH, blkOf_back hh.H uG, loops2_intr_extr hm hn jG jH c (hc.trans (len2 hm hn).symm)]
  · rw [hor_blk hm hn hx hh, extr2, blkOf_back hh.G uH, blkOf_back hh.H uG]
    exact loops2_conj hm hn jG jH _

theorem rep_sub (x η ζ : Pair ℂ (Fin m) (Fin n) (Fin r)) : rep x ⟨η.G - ζ.G, η.H - ζ.H⟩ = rep x η - rep x ζ := by
  simp only [rep, Matrix.sub_mul, conjTranspose_sub, Matrix.mul_sub]; abel

/-- **C37 (complex two-factor fixed rank, extrinsic → intrinsic → extrinsic).** Horizontal pairs come back; any pair comes back as its horizontal projection. -/
theorem C37_ctwo_factor_extr_intr (hm : r ≤ m) (hn : r ≤ n) (hx : IsPt x) (hh : IsHou x hG hH) (jG jH : Nat → ℝ) (η : Pair ℂ (Fin m) (Fin n) (Fin r)) :
    (IsHor x η → extr2 jG jH hG hH (intr2 hG hH η) = η) ∧ ∀ LG LH : Matrix (Fin r) (Fin r) ℂ, Chol x LG LH → extr2 jG jH hG hH (intr2 hG hH η) = proj LG LH x η := by
  obtain ⟨uG, uH⟩ := pt_low hm hn hx hh
  refine ⟨fun hη => ?_, fun LG LH hL => ?_⟩
  · obtain ⟨a, b⟩ := loops2_extr_intr hm hn jG jH ((hor_blk hm hn hx hh η).mp hη)
    rw [extr2, intr2, back_blkOf hh.G uH a, back_blkOf hh.H uG b]
  · obtain ⟨h1, h2, -⟩ := C76_projection hx hL η
    obtain ⟨e, h3⟩ := C37_ctwo_factor_intr_extr hm hn hx hh jG jH _ (C37_ctwo_factor_dim hm hn hG hH η)
    generalize extr2 jG jH hG hH (intr2 hG hH η) = ζ at *
    have k : rep x ζ = rep x η := by
      rw [← sub_eq_zero, ← ip_self_eq_zero, ip_sub_left, ip_sub_right, ip_sub_right, ← C76_metric, ← C76_metric, ← C76_metric, ← C76_metric]
      simp only [← C37_ctwo_factor_isometry hm hn hh, e, sub_self]
    have h4 : IsHor x ⟨ζ.G - (proj LG LH x η).G, ζ.H - (proj LG LH x η).H⟩ := by
      simp only [IsHor, Matrix.mul_sub, Matrix.sub_mul, conjTranspose_sub] at *
      rw [h1, h3]
    obtain ⟨a, b⟩ := C76_horizontal_unique hx h4 (by rw [rep_sub, k, h2, sub_self])
    have a := sub_eq_zero.mp a
    have b := sub_eq_zero.mp b
    cases ζ
    simp only at a b
    rw [a, b]

/-- **C46 (complex two-factor fixed rank, transport).** The vector transport gives a horizontal pair of the new point and keeps the metric, for all pairs. -/
theorem C46_ctwo_factor_transport (hm : r ≤ m) (hn : r ≤ n) {y : Pair ℂ (Fin m) (Fin n) (Fin r)} {kG : Hou m r} {kH : Hou n r} (hh : IsHou x hG hH) (hy : IsPt y) (hk : IsHou y kG kH)
    (jG jH : Nat → ℝ) (η ξ : Pair ℂ (Fin m) (Fin n) (Fin r)) :
    IsHor y (trans2 jG jH hG hH kG kH ξ) ∧ metric y (trans2 jG jH hG hH kG kH η) (trans2 jG jH hG hH kG kH ξ) = metric x η ξ := by
  obtain ⟨a, b⟩ := C37_ctwo_factor_intr_extr hm hn hy hk jG jH _ (C37_ctwo_factor_dim hm hn hG hH η)
  obtain ⟨c, d⟩ := C37_ctwo_factor_intr_extr hm hn hy hk jG jH _ (C37_ctwo_factor_dim hm hn hG hH ξ)
  refine ⟨d, ?_⟩
  rw [← C37_ctwo_factor_isometry hm hn hk, trans2, trans2, a, c, C37_ctwo_factor_isometry hm hn hh]

/-- **C46 (complex two-factor fixed rank, inverse transport).** What the extrinsic inverse transport computes: the projection at `x` of its argument, whatever `y` is. -/
theorem C46_ctwo_factor_inverse_partial (hm : r ≤ m) (hn : r ≤ n) (hx : IsPt x) (hh : IsHou x hG hH) (kG : Hou m r) (kH : Hou n r) (jG jH : Nat → ℝ) (ξ : Pair ℂ (Fin m) (Fin n) (Fin r))
    {LG LH : Matrix (Fin r) (Fin r) ℂ} (hL : Chol x LG LH) : invTrans2 jG jH hG hH kG kH ξ = proj LG LH x ξ :=
  (C37_ctwo_factor_extr_intr hm hn hx hh jG jH ξ).2 LG LH hL

/-- Horizontal space of the complex two-factor fixed-rank manifold, a real vector space. -/
def tCQ2F (x : Pair ℂ (Fin m) (Fin n) (Fin r)) : Submodule ℝ (Matrix (Fin m) (Fin r) ℂ × Matrix (Fin n) (Fin r) ℂ) where
  carrier := {v | IsHor x ⟨v.1, v.2⟩}
  add_mem' := by
    intro a b ha hb
    simp only [Set.mem_ofPred_eq, IsHor, Prod.fst_add, Prod.snd_add, conjTranspose_add, Matrix.mul_add, Matrix.add_mul] at *
    rw [ha, hb]
  zero_mem' := by simp [IsHor]
  smul_mem' := by
    intro c a ha
    simp only [Set.mem_ofPred_eq, IsHor, Prod.smul_fst, Prod.smul_snd, conj_rsmul, Matrix.mul_smul, Matrix.smul_mul] at *
    rw [ha]

/-- **C78 (complex two-factor fixed rank).** Unlike for the real manifold, the dimension reported is the dimension. -/
theorem C78_ctwo_factor (hm : r ≤ m) (hn : r ≤ n) (hx : IsPt x) (hh : IsHou x hG hH) : (Module.finrank ℝ (tCQ2F x) : ℤ) = (Dims.cfixedRankQ2F m n r).intr ∧
    ∀ η, ((intr2 hG hH η).length : ℤ) = (Dims.cfixedRankQ2F m n r).len := by
  have hcast : ((2 * (m + n - r) * r : ℕ) : ℤ) = 2 * ((m : ℤ) + n - r) * r := by
    rw [Nat.cast_mul, Nat.cast_mul, Nat.cast_sub (by omega), Nat.cast_add, Nat.cast_ofNat]
  refine ⟨?_, fun η => by rw [C37_ctwo_factor_dim hm hn, hcast, Dims.cfixedRankQ2F]⟩
  rw [Dims.finrank_of_coords (tCQ2F x) (2 * (m + n - r) * r) (fun u v => metric x ⟨u.1, u.2⟩ ⟨v.1, v.2⟩) (fun v => intr2 hG hH ⟨v.1, v.2⟩)
    (fun c => ((extr2 (fun _ => 0) (fun _ => 0) hG hH c).G, (extr2 (fun _ => 0) (fun _ => 0) hG hH c).H))
    (fun v _ => C37_ctwo_factor_dim hm hn _ _ _) (fun c hc => C37_ctwo_factor_intr_extr hm hn hx hh _ _ c hc) (fun v hv => ?_)
    (fun u _ v _ => C37_ctwo_factor_isometry hm hn hh _ _) (fun u u' v => ?_) fun c u v => ?_, hcast, Dims.cfixedRankQ2F]
  · have := (C37_ctwo_factor_extr_intr hm hn hx hh (fun _ => 0) (fun _ => 0) ⟨v.1, v.2⟩).1 hv
    rw [this]
  · simp only [C76_metric, ← ip_add_left]
    congr 1
    simp only [rep, Prod.fst_add, Prod.snd_add, conjTranspose_add, Matrix.mul_add, Matrix.add_mul]; abel
  · simp only [C76_metric, ← ip_rsmul_left]
    congr 1
    simp only [rep, Prod.smul_fst, Prod.smul_snd, conj_rsmul, Matrix.mul_smul, Matrix.smul_mul, smul_add]

/-! ## The defect and examples -/

/-- The pair of two numbers. -/
def one (a b : ℂ) : Pair ℂ (Fin 1) (Fin 1) (Fin 1) := ⟨!![a], !![b]⟩

theorem one_hou (a b : ℂ) : IsHou (one a b) ⟨1, !![a]⟩ ⟨1, !![b]⟩ := by
  refine ⟨⟨by simp, ?_⟩, ⟨by simp, ?_⟩⟩ <;> ext i j <;> fin_cases i <;> fin_cases j <;> simp [one, upper]

theorem one_pt {a b : ℂ} (ha : a ≠ 0) (hb : b ≠ 0) : IsPt (one a b) := by
  constructor <;> simp [one, Matrix.mul_apply, ha, hb]

theorem one_chol {a b : ℂ} : Chol (one a b) !![star a] !![star b] := by
  constructor <;> ext i j <;> fin_cases i <;> fin_cases j <;> simp [one, Matrix.mul_apply]

theorem one_hor {a b c d : ℂ} : IsHor (one a b) (one c d) ↔ star a * c * (star b * b) = star a * a * (star d * b) := by
  unfold IsHor
  rw [← Matrix.ext_iff]
  simp [one, Matrix.mul_apply]

/-- **C46 (complex inverse transport, negation).** The extrinsic inverse transport does not undo the transport: for `x = (1, 1)`, `y = (i, 1)` and the horizontal pair `(1, 1)`. -/
theorem C46_ctwo_factor_inverse_fails (jG jH : Nat → ℝ) : ∃ (x y ξ : Pair ℂ (Fin 1) (Fin 1) (Fin 1)) (xG xH yG yH : Hou 1 1), IsPt x ∧ IsPt y ∧ IsHou x xG xH ∧ IsHou y yG yH ∧
    IsHor x ξ ∧ invTrans2 jG jH xG xH yG yH (trans2 jG jH xG xH yG yH ξ) ≠ ξ := by
  have px : IsPt (one 1 1) := one_pt one_ne_zero one_ne_zero
  have py : IsPt (one Complex.I 1) := one_pt Complex.I_ne_zero one_ne_zero
  have hy : IsHou (one Complex.I 1) ⟨!![Complex.I], !![1]⟩ ⟨1, !![1]⟩ := by
    refine ⟨⟨?_, ?_⟩, ⟨by simp, ?_⟩⟩ <;> ext i j <;> fin_cases i <;> fin_cases j <;> simp [one, upper, Matrix.mul_apply, conjTranspose_apply]
  refine ⟨one 1 1, one Complex.I 1, one 1 1, _, _, _, _, px, py, one_hou 1 1, hy, one_hor.mpr (by norm_num), ?_⟩
  intro e
  rw [C46_ctwo_factor_inverse_partial le_rfl le_rfl px (one_hou 1 1) _ _ jG jH _ one_chol] at e
  obtain ⟨hor, met⟩ := C46_ctwo_factor_transport le_rfl le_rfl (one_hou 1 1) py hy jG jH (one 1 1) (one 1 1)
  obtain ⟨-, hrep, -⟩ := C76_projection px one_chol (trans2 jG jH ⟨1, !![1]⟩ ⟨1, !![1]⟩ ⟨!![Complex.I], !![1]⟩ ⟨1, !![1]⟩ (one 1 1))
  rw [e] at hrep
  generalize trans2 jG jH ⟨1, !![1]⟩ ⟨1, !![1]⟩ ⟨!![Complex.I], !![1]⟩ ⟨1, !![1]⟩ (one 1 1) = t at *
  obtain ⟨G, H⟩ := t
  have hGH : (⟨G, H⟩ : Pair ℂ (Fin 1) (Fin 1) (Fin 1)) = one (G 0 0) (H 0 0) := by
    simp only [one, Pair.mk.injEq]
    constructor <;> ext i j <;> fin_cases i <;> fin_cases j <;> rfl
  rw [hGH] at hor met hrep
  rw [one_hor] at hor
  have one_rep : ∀ a b c d : ℂ, rep (one a b) (one c d) = !![c * star b + a * star d] := by
    intro a b c d
    ext i j
    fin_cases i; fin_cases j
    simp only [rep, one, Matrix.add_apply, Matrix.mul_apply, conjTranspose_apply, Finset.univ_unique, Finset.sum_singleton]
    rfl
  have r1 := congrFun (congrFun hrep 0) 0
  rw [C76_metric, C76_metric] at met
  simp only [one_rep, Matrix.of_apply, Matrix.cons_val_zero] at r1 met
  simp only [ip, Finset.univ_unique, Finset.sum_singleton, Fin.default_eq_zero, Matrix.of_apply, Matrix.cons_val_zero] at met
  generalize G 0 0 = g at *
  generalize H 0 0 = k at *
  have a1 := congrArg Complex.re hor
  have a2 := congrArg Complex.im hor
  have b1 := congrArg Complex.re r1
  have b2 := congrArg Complex.im r1
  simp at a1 a2 b1 b2 met
  nlinarith

/-- The hypotheses of C37, C46 and C78 hold for factors with complex entries. -/
example : IsHor (one Complex.I 2) (one (-Complex.I) (-2)) ∧ IsPt (one Complex.I 2) ∧ IsHou (one Complex.I 2) ⟨1, !![Complex.I]⟩ ⟨1, !![2]⟩ ∧
    Chol (one Complex.I 2) !![star Complex.I] !![star 2] := ⟨one_hor.mpr (by simp), one_pt Complex.I_ne_zero two_ne_zero, one_hou _ _, one_chol⟩

/-- The theorem for the dimension at a pair of numbers: two. -/
example : Module.finrank ℝ (tCQ2F (one Complex.I 2)) = 2 := by
  have := (C78_ctwo_factor le_rfl le_rfl (one_pt Complex.I_ne_zero two_ne_zero) (one_hou Complex.I 2)).1
  norm_num [Dims.cfixedRankQ2F] at this
  exact_mod_cast this

end Verif.CFixed
