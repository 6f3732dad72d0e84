import Verif.Manifold.SymFRIntr
import Verif.Props.SymFR
import Verif.Props.Q2FIntr

/-!
# Intrinsic coordinates and vector transport of symmetric fixed-rank matrices: properties C37, C46
-/

set_option linter.unusedSectionVars false
set_option linter.unusedVariables false
set_option linter.unusedSimpArgs false

namespace Verif.SymFR

open Matrix Verif.Elem Verif.Intr Verif.CMat Verif.Mat Verif.Q2F

variable {n p : Nat}

/-! ## Auxiliary lemmas: the loops -/

/-- The loops of both metrics with the factors as functions. -/
def gI (n p : Nat) (f1 f2 f3 : ℝ → ℝ) (t : Nat → ℝ) : List ℝ :=
  (List.range p).map (fun i => f1 (t (i + i * n))) ++ ((pairs p).map (fun q => f2 (t (q.2 + q.1 * n))) ++ (rest n p).map (fun q => f3 (t (q.2 + q.1 * n))))

/-- The writes of both metrics with the factors as functions. -/
def gW (n p : Nat) (g1 g2 g3 : ℝ → ℝ) (c : Nat → ℝ) : List (Nat × ℝ) :=
  (List.range p).map (fun i => (i + i * n, g1 (c i))) ++
    ((pairs p).zipIdx.flatMap (fun w => [(w.1.2 + w.1.1 * n, g2 (c (p + w.2))), (w.1.1 + w.1.2 * n, g2 (c (p + w.2)))]) ++
      (rest n p).zipIdx.map (fun w => (w.1.2 + w.1.1 * n, g3 (c (p + (pairs p).length + w.2)))))

variable {f1 f2 f3 g1 g2 g3 : ℝ → ℝ}

theorem mem_gW {c : Nat → ℝ} {a : Nat} {v : ℝ} : (a, v) ∈ gW n p g1 g2 g3 c ↔
    (∃ i < p, a = i + i * n ∧ v = g1 (c i)) ∨
    (∃ i j k, (pairs p)[k]? = some (i, j) ∧ ((a = j + i * n ∨ a = i + j * n) ∧ v = g2 (c (p + k)))) ∨
    (∃ i j k, (rest n p)[k]? = some (i, j) ∧ a = j + i * n ∧ v = g3 (c (p + (pairs p).length + k))) := by
  simp only [gW, List.mem_append, List.mem_map, List.mem_flatMap, List.mem_range, List.mem_cons, List.not_mem_nil, or_false, Prod.mk.injEq, Prod.exists,
    List.mk_mem_zipIdx_iff_getElem?]
  refine or_congr ?_ (or_congr ?_ ?_)
  · constructor
    · rintro ⟨i, h, rfl, rfl⟩; exact ⟨i, h, rfl, rfl⟩
    · rintro ⟨i, h, rfl, rfl⟩; exact ⟨i, h, rfl, rfl⟩
  · constructor
    · rintro ⟨i, j, k, h, ⟨rfl, rfl⟩ | ⟨rfl, rfl⟩⟩
      · exact ⟨i, j, k, h, Or.inl rfl, rfl⟩
      · exact ⟨i, j, k, h, Or.inr rfl, rfl⟩
    · rintro ⟨i, j, k, h, rfl | rfl, rfl⟩
      · exact ⟨i, j, k, h, Or.inl ⟨rfl, rfl⟩⟩
      · exact ⟨i, j, k, h, Or.inr ⟨rfl, rfl⟩⟩
  · constructor
    · rintro ⟨i, j, k, h, rfl, rfl⟩; exact ⟨i, j, k, h, rfl, rfl⟩
    · rintro ⟨i, j, k, h, rfl, rfl⟩; exact ⟨i, j, k, h, rfl, rfl⟩

theorem gW_diag (hp : p ≤ n) (jk c : Nat → ℝ) {i : Nat} (hi : i < p) : writeAll jk (gW n p g1 g2 g3 c) (i + i * n) = g1 (c i) := by
  refine writeAll_of_mem _ _ _ _ (mem_gW.mpr (Or.inl ⟨i, hi, rfl, rfl⟩)) fun v hv => ?_
  rcases mem_gW.mp hv with ⟨a, ha, e, rfl⟩ | ⟨a, b, k, h, e | e, rfl⟩ | ⟨a, b, k, h, e, rfl⟩
  · obtain ⟨rfl, -⟩ := colMajor_inj (by omega) (by omega) e; rfl
  · have := idx_of_pair h
    obtain ⟨rfl, rfl⟩ := colMajor_inj (by omega) (by omega) e; omega
  · have := idx_of_pair h
    obtain ⟨rfl, rfl⟩ := colMajor_inj (by omega) (by omega) e; omega
  · have := idx_of_rest h
    obtain ⟨rfl, rfl⟩ := colMajor_inj (by omega) (by omega) e; omega

theorem gW_pair (hp : p ≤ n) (jk c : Nat → ℝ) {i j k : Nat} (hk : (pairs p)[k]? = some (i, j)) :
    writeAll jk (gW n p g1 g2 g3 c) (j + i * n) = g2 (c (p + k)) ∧ writeAll jk (gW n p g1 g2 g3 c) (i + j * n) = g2 (c (p + k)) := by
  have hij := idx_of_pair hk
  constructor
  · refine writeAll_of_mem _ _ _ _ (mem_gW.mpr (Or.inr (Or.inl ⟨i, j, k, hk, Or.inl rfl, rfl⟩))) fun v hv => ?_
    rcases mem_gW.mp hv with ⟨a, ha, e, rfl⟩ | ⟨a, b, k', h, e | e, rfl⟩ | ⟨a, b, k', h, e, rfl⟩
    · obtain ⟨rfl, rfl⟩ := colMajor_inj (by omega) (by omega) e; omega
    · have := idx_of_pair h
      obtain ⟨rfl, rfl⟩ := colMajor_inj (by omega) (by omega) e
      rw [index_unique (nodup_pairs p) hk h]
    · have := idx_of_pair h
      obtain ⟨rfl, rfl⟩ := colMajor_inj (by omega) (by omega) e; omega
    · have := idx_of_rest h
      obtain ⟨rfl, rfl⟩ := colMajor_inj (by omega) (by omega) e; omega
  · refine writeAll_of_mem _ _ _ _ (mem_gW.mpr (Or.inr (Or.inl ⟨i, j, k, hk, Or.inr rfl, rfl⟩))) fun v hv => ?_
    rcases mem_gW.mp hv with ⟨a, ha, e, rfl⟩ | ⟨a, b, k', h, e | e, rfl⟩ | ⟨a, b, k', h, e, rfl⟩
    · obtain ⟨rfl, rfl⟩ := colMajor_inj (by omega) (by omega) e; omega
    · have := idx_of_pair h
      obtain ⟨rfl, rfl⟩ := colMajor_inj (by omega) (by omega) e; omega
    · have := idx_of_pair h
      obtain ⟨rfl, rfl⟩ := colMajor_inj (by omega) (by omega) e
      rw [index_unique (nodup_pairs p) hk h]
    · have := idx_of_rest h
      obtain ⟨rfl, rfl⟩ := colMajor_inj (by omega) (by omega) e; omega

theorem gW_rest (hp : p ≤ n) (jk c : Nat → ℝ) {i j k : Nat} (hk : (rest n p)[k]? = some (i, j)) :
    writeAll jk (gW n p g1 g2 g3 c) (j + i * n) = g3 (c (p + (pairs p).length + k)) := by
  have hij := idx_of_rest hk
  refine writeAll_of_mem _ _ _ _ (mem_gW.mpr (Or.inr (Or.inr ⟨i, j, k, hk, rfl, rfl⟩))) fun v hv => ?_
  rcases mem_gW.mp hv with ⟨a, ha, e, rfl⟩ | ⟨a, b, k', h, e | e, rfl⟩ | ⟨a, b, k', h, e, rfl⟩
  · obtain ⟨rfl, rfl⟩ := colMajor_inj (by omega) (by omega) e; omega
  · have := idx_of_pair h
    obtain ⟨rfl, rfl⟩ := colMajor_inj (by omega) (by omega) e; omega
  · have := idx_of_pair h
    obtain ⟨rfl, rfl⟩ := colMajor_inj (by omega) (by omega) e; omega
  · have := idx_of_rest h
    obtain ⟨rfl, rfl⟩ := colMajor_inj (by omega) (by omega) e
    rw [index_unique (nodup_rest n p) hk h]

/-- The square on top is symmetric. -/
def TopSym (n p : Nat) (t : Nat → ℝ) : Prop := ∀ i j, i < p → j < p → t (i + j * n) = t (j + i * n)

theorem gI_length : ∀ t, (gI n p f1 f2 f3 t).length = p + ((pairs p).length + (rest n p).length) := by
  intro t; simp [gI]

theorem gI_gW (hp : p ≤ n) (hf1 : ∀ z, f1 (g1 z) = z) (hf2 : ∀ z, f2 (g2 z) = z) (hf3 : ∀ z, f3 (g3 z) = z) (jk : Nat → ℝ) (c : List ℝ)
    (hc : c.length = p + ((pairs p).length + (rest n p).length)) : gI n p f1 f2 f3 (flat (unflat n p (writeAll jk (gW n p g1 g2 g3 (buf c))))) = c := by
  set t := flat (unflat n p (writeAll jk (gW n p g1 g2 g3 (buf c)))) with ht
  have e1 : (List.range p).map (fun i => f1 (t (i + i * n))) = c.take p := by
    apply List.ext_getElem
    · simp; omega
    · intro k h1 h2
      have hk : k < p := by simpa using h1
      rw [List.getElem_map, List.getElem_range, List.getElem_take, ht, flat_unflat _ (by omega) (by omega), gW_diag hp _ _ hk, hf1]
      simp [buf, List.getD_eq_getElem?_getD, List.getElem?_eq_getElem (show k < c.length by omega)]
  have hbuf : ∀ k, buf (c.drop p) k = buf c (p + k) := by intro k; simp [buf, List.getD_eq_getElem?_getD]
  have e2 : (pairs p).map (fun q => f2 (t (q.2 + q.1 * n))) ++ (rest n p).map (fun q => f3 (t (q.2 + q.1 * n))) = c.drop p := by
    refine list_of_buf _ _ _ (by simp; omega) ?_ ?_
    · rintro k ⟨i, j⟩ hk
      have := idx_of_pair hk
      simp only []
      rw [ht, flat_unflat _ (by omega) (by omega), (gW_pair hp _ _ hk).1, hf2, hbuf]
    · rintro k ⟨i, j⟩ hk
      have := idx_of_rest hk
      simp only []
      rw [ht, flat_unflat _ (by omega) (by omega), gW_rest hp _ _ hk, hf3, hbuf, Nat.add_assoc]
  rw [gI, e1, e2, List.take_append_drop]

theorem gW_gI (hp : p ≤ n) (hg1 : ∀ z, g1 (f1 z) = z) (hg2 : ∀ z, g2 (f2 z) = z) (hg3 : ∀ z, g3 (f3 z) = z) (jk : Nat → ℝ) (A : Matrix (Fin n) (Fin p) ℝ)
    (hA : TopSym n p (flat A)) : unflat n p (writeAll jk (gW n p g1 g2 g3 (buf (gI n p f1 f2 f3 (flat A))))) = A := by
  have b1 : ∀ i, i < p → buf (gI n p f1 f2 f3 (flat A)) i = f1 (flat A (i + i * n)) := by
    intro i hi
    have : (List.range p)[i]? = some i := by simp [hi]
    exact buf_map_left this
  have b2 : ∀ i j k, (pairs p)[k]? = some (i, j) → buf (gI n p f1 f2 f3 (flat A)) (p + k) = f2 (flat A (j + i * n)) := by
    intro i j k hk
    have hlt := (List.getElem?_eq_some_iff.mp hk).1
    have := buf_append_right (l := (List.range p).map fun i => f1 (flat A (i + i * n)))
      (m := (pairs p).map (fun q => f2 (flat A (q.2 + q.1 * n))) ++ (rest n p).map fun q => f3 (flat A (q.2 + q.1 * n))) (k := k) (by simp; omega)
    rw [List.length_map, List.length_range] at this
    rw [gI, this, List.getElem_append_left (by simpa using hlt), List.getElem_map, (List.getElem?_eq_some_iff.mp hk).2]
  have b3 : ∀ i j k, (rest n p)[k]? = some (i, j) → buf (gI n p f1 f2 f3 (flat A)) (p + (pairs p).length + k) = f3 (flat A (j + i * n)) := by
    intro i j k hk
    rw [gI, ← List.append_assoc]
    have := buf_map_right (f := fun q => f3 (flat A (q.2 + q.1 * n)))
      (m := (List.range p).map (fun i => f1 (flat A (i + i * n))) ++ (pairs p).map (fun q => f2 (flat A (q.2 + q.1 * n)))) hk
    simpa only [List.length_append, List.length_map, List.length_range] using this
  ext ⟨i, hi⟩ ⟨j, hj⟩
  show writeAll jk _ (i + j * n) = _
  rw [← flat_apply A hi hj]
  by_cases hip : i < p
  · rcases Nat.lt_trichotomy i j with h | h | h
    · obtain ⟨k, hk⟩ := index_exists (mem_pairs.mpr ⟨h, hj⟩)
      rw [(gW_pair hp _ _ hk).2, b2 i j k hk, hg2, hA i j hip hj]
    · subst h
      rw [gW_diag hp _ _ hip, b1 i hip, hg1]
    · obtain ⟨k, hk⟩ := index_exists (mem_pairs.mpr ⟨h, hip⟩)
      rw [(gW_pair hp _ _ hk).1, b2 j i k hk, hg2]
  · obtain ⟨k, hk⟩ := index_exists (mem_rest.mpr ⟨hj, not_lt.mp hip, hi⟩)
    rw [gW_rest hp _ _ hk, b3 j i k hk, hg3]

theorem gW_sym (hp : p ≤ n) (jk c : Nat → ℝ) : TopSym n p (flat (unflat n p (writeAll jk (gW n p g1 g2 g3 c)))) := by
  intro i j hi hj
  rw [flat_unflat _ (by omega) (by omega), flat_unflat _ (by omega) (by omega)]
  rcases Nat.lt_trichotomy i j with h | h | h
  · obtain ⟨k, hk⟩ := index_exists (mem_pairs.mpr ⟨h, hj⟩)
    rw [(gW_pair hp _ _ hk).1, (gW_pair hp _ _ hk).2]
  · rw [h]
  · obtain ⟨k, hk⟩ := index_exists (mem_pairs.mpr ⟨h, hi⟩)
    rw [(gW_pair hp _ _ hk).1, (gW_pair hp _ _ hk).2]

/-- The dot product of two lists of coordinates: weights `a` for the square on top, `b` for the rest. -/
theorem gI_dot (a b : ℝ) (h1 : ∀ y z, f1 y * f1 z = a * (y * z)) (h2 : ∀ y z, f2 y * f2 z = a * (2 * (y * z))) (h3 : ∀ y z, f3 y * f3 z = b * (y * z)) {A B : Matrix (Fin n) (Fin p) ℝ}
    (hA : TopSym n p (flat A)) (hB : TopSym n p (flat B)) : dot (gI n p f1 f2 f3 (flat A)) (gI n p f1 f2 f3 (flat B)) =
      a * ∑ j ∈ Finset.range p, ∑ i ∈ Finset.range p, flat A (i + j * n) * flat B (i + j * n) +
      b * ((rest n p).map fun q => flat A (q.2 + q.1 * n) * flat B (q.2 + q.1 * n)).sum := by
  rw [gI, gI, dot_append (by simp), dot_append (by simp), dot_map, dot_map, dot_map, sum_square, sum_range_list, ← add_assoc]
  congr 1
  · rw [mul_add, Finset.mul_sum]
    congr 1
    · exact Finset.sum_congr rfl fun i _ => h1 _ _
    · rw [← List.sum_map_mul_left]
      congr 1
      refine List.map_congr_left fun q hq => ?_
      have := mem_pairs.mp hq
      rw [h2, hA q.1 q.2 (by omega) (by omega), hB q.1 q.2 (by omega) (by omega)]
      ring
  · rw [← List.sum_map_mul_left]
    congr 1
    exact List.map_congr_left fun q hq => h3 _ _

/-! ## Auxiliary lemmas: matrices -/

/-- The Householder data belongs to the point. -/
abbrev IsHou1 (x : Matrix (Fin n) (Fin p) ℝ) (h : Hou1 n p) : Prop := IsHHR x h.Q h.R

variable {x : Matrix (Fin n) (Fin p) ℝ} {h : Hou1 n p}

theorem low_unit1 (hp : p ≤ n) (hx : IsPt x) (hh : IsHou1 x h) : IsUnit (lowL h.R).det := by
  refine low_unit hp hh ?_
  have : IsUnit (xᴴ * x).det := hx
  rwa [conjTranspose_eq_transpose_of_trivial] at this

theorem tmpL_eq (h : Hou1 n p) (η : Matrix (Fin n) (Fin p) ℝ) : tmpL h η = (orthO h.Q h.R)ᵀ * (η * lowL h.R) := blkOf_eq h.Q h.R (lowL h.R) η

theorem tmpL_back (hp : p ≤ n) (hx : IsPt x) (hh : IsHou1 x h) (b : Nat → ℝ) : tmpL h (backL h b) = unflat n p b := by
  rw [tmpL_eq, backL, scale_eq, Matrix.mul_assoc h.Q, Matrix.mul_assoc _ _ (lowL h.R), nonsing_inv_mul _ (low_unit1 hp hx hh), Matrix.mul_one, ← Matrix.mul_assoc h.Q, ← orthO,
    ← Matrix.mul_assoc, orthO_orth hh, Matrix.one_mul]

theorem back_tmpL (hp : p ≤ n) (hx : IsPt x) (hh : IsHou1 x h) {b : Nat → ℝ} {η : Matrix (Fin n) (Fin p) ℝ} (e : unflat n p b = tmpL h η) : backL h b = η := by
  rw [backL, e, tmpL_eq, scale_eq, ← Matrix.mul_assoc h.Q, ← Matrix.mul_assoc h.Q, ← orthO, ← Matrix.mul_assoc, orthO_orth' hh, Matrix.one_mul, Matrix.mul_assoc,
    mul_nonsing_inv _ (low_unit1 hp hx hh), Matrix.mul_one]

/-- Horizontal vectors in the coordinates. -/
theorem hor_top (hp : p ≤ n) (hx : IsPt x) (hh : IsHou1 x h) (η : Matrix (Fin n) (Fin p) ℝ) : IsHor metricH x η ↔ TopSym n p (flat (tmpL h η)) := by
  have u := low_unit1 hp hx hh
  have e : xᴴ * η * (xᴴ * x) = lowL h.R * ((topI n p)ᵀ * tmpL h η) * (lowL h.R)ᵀ := by
    rw [conjTranspose_eq_transpose_of_trivial, ← gram_low hp hh, tmpL_eq]
    conv_lhs => rw [hhr_eq hp hh]
    simp only [transpose_mul, transpose_transpose, Matrix.mul_assoc]
  rw [hor_H, e, conjTranspose_eq_transpose_of_trivial, transpose_mul, transpose_mul, transpose_transpose, ← Matrix.mul_assoc]
  have u' : IsUnit ((lowL h.R)ᵀ).det := by rwa [det_transpose]
  have key : lowL h.R * ((topI n p)ᵀ * tmpL h η)ᵀ * (lowL h.R)ᵀ = lowL h.R * ((topI n p)ᵀ * tmpL h η) * (lowL h.R)ᵀ ↔
      ((topI n p)ᵀ * tmpL h η)ᵀ = (topI n p)ᵀ * tmpL h η := by
    constructor
    · intro k
      have := congrArg (fun M => (lowL h.R)⁻¹ * (M * ((lowL h.R)ᵀ)⁻¹)) k
      simpa only [Matrix.mul_assoc, mul_nonsing_inv _ u', Matrix.mul_one, nonsing_inv_mul_cancel_left _ _ u] using this
    · intro k; rw [k]
  rw [key]
  constructor
  · intro k i j hi hj
    have := congrFun (congrFun k ⟨j, hj⟩) ⟨i, hi⟩
    rw [transpose_apply, top_mul _ hp, top_mul _ hp] at this
    rw [flat_apply _ (by omega) hj, flat_apply _ (by omega) hi]
    exact this
  · intro k
    ext ⟨j, hj⟩ ⟨i, hi⟩
    have := k i j hi hj
    rw [flat_apply _ (by omega) hj, flat_apply _ (by omega) hi] at this
    rw [transpose_apply, top_mul _ hp, top_mul _ hp]
    exact this

theorem metricH_tmp (hp : p ≤ n) (hh : IsHou1 x h) (η ξ : Matrix (Fin n) (Fin p) ℝ) : metricH x η ξ = frob (tmpL h η) (tmpL h ξ) := by
  have e : frob (tmpL h η) (tmpL h ξ) = frob (η * lowL h.R) (ξ * lowL h.R) := by
    rw [tmpL_eq, tmpL_eq, frob_mul_left, transpose_transpose, ← Matrix.mul_assoc, orthO_orth' hh, Matrix.one_mul]
  rw [metricH, ip_real, conjTranspose_eq_transpose_of_trivial, conjTranspose_eq_transpose_of_trivial, ← gram_low hp hh, e, frob_mul_right _ (lowL h.R) (ξ * lowL h.R), Matrix.mul_assoc ξ,
    frob_mul_left' ηᵀ, transpose_transpose, frob_comm, frob_mul_left', frob_mul_left' ξ, ← frob_transpose]
  simp only [transpose_mul, transpose_transpose]

theorem metricE_tmp (hp : p ≤ n) (hh : IsHou1 x h) (η ξ : Matrix (Fin n) (Fin p) ℝ) :
    metricE x η ξ = frob (blk (tmpL h η) (tmpL h η)) (blk (tmpL h ξ) (tmpL h ξ)) := by
  have key : ∀ ζ : Matrix (Fin n) (Fin p) ℝ, rep x ζ = orthO h.Q h.R * blk (tmpL h ζ) (tmpL h ζ) * (orthO h.Q h.R)ᵀ := by
    intro ζ
    have o := orthO_orth' hh
    unfold rep blk
    rw [tmpL_eq]
    simp only [conjTranspose_eq_transpose_of_trivial]
    conv_lhs => rw [hhr_eq hp hh]
    simp only [transpose_mul, transpose_transpose, Matrix.mul_add, Matrix.add_mul]
    congr 1
    · simp only [← Matrix.mul_assoc]
      rw [o, Matrix.one_mul]
    · simp only [Matrix.mul_assoc]
      rw [o, Matrix.mul_one]
  rw [C80_metric, ip_real, key, key, frob_mul_right', transpose_transpose, Matrix.mul_assoc _ (orthO h.Q h.R)ᵀ,
    orthO_orth hh, Matrix.mul_one, frob_mul_left, ← Matrix.mul_assoc, orthO_orth hh, Matrix.one_mul]

theorem frob_blk (hp : p ≤ n) {A B : Matrix (Fin n) (Fin p) ℝ} (hA : TopSym n p (flat A)) (hB : TopSym n p (flat B)) : frob (blk A A) (blk B B) =
    4 * ∑ j ∈ Finset.range p, ∑ i ∈ Finset.range p, flat A (i + j * n) * flat B (i + j * n) +
      2 * ((rest n p).map fun q => flat A (q.2 + q.1 * n) * flat B (q.2 + q.1 * n)).sum := by
  rw [← loops_dot hp hp, intrLoops, intrLoops, dot_append (by simp), dot_append (by simp), dot_map, dot_map, sum_sq, two_mul]
  congr 1
  rw [Finset.mul_sum]
  refine Finset.sum_congr rfl fun i hi => ?_
  rw [Finset.mul_sum]
  refine Finset.sum_congr rfl fun j hj => ?_
  rw [Finset.mem_range] at hi hj
  simp only []
  rw [hA i j hi hj, hB i j hi hj]
  ring

theorem r2_pos : r2 ≠ 0 := r2_ne

theorem dim_eq (hp : p ≤ n) : p + ((pairs p).length + (rest n p).length) = n * p - p * (p - 1) / 2 := by
  rw [length_rest, length_pairs]
  have h1 := two_mul_length_pairs p
  rw [length_pairs] at h1
  obtain ⟨a, rfl⟩ := Nat.exists_eq_add_of_le hp
  have h2 : (p + a) * p = p * p + p * a := by ring
  have h3 : p * p = p * (p - 1) + p := by
    rcases p with _ | p
    · rfl
    · simp only [Nat.add_sub_cancel]; ring
  rw [Nat.add_sub_cancel_left]
  omega

/-! ## C37 -/

/-- **C37 (symmetric fixed rank, dimension).** `n p - p (p - 1) / 2` coordinates (SymFixedRankQ.cpp:10). -/
theorem C37_sym_dim (hp : p ≤ n) (h : Hou1 n p) (η : Matrix (Fin n) (Fin p) ℝ) :
    (intrE h η).length = n * p - p * (p - 1) / 2 ∧ (intrH h η).length = n * p - p * (p - 1) / 2 := by
  rw [← dim_eq hp]
  constructor
  · simp [intrE, intrLoopsE]
  · simp [intrH, intrLoopsH]

/-- **C37 (symmetric fixed rank, isometry, first metric).** On horizontal vectors the inner product of the coordinates is the metric. -/
theorem C37_sym_isometry_euc (hp : p ≤ n) (hx : IsPt x) (hh : IsHou1 x h) {η ξ : Matrix (Fin n) (Fin p) ℝ} (hη : IsHor metricH x η) (hξ : IsHor metricH x ξ) :
    dot (intrE h η) (intrE h ξ) = metricE x η ξ := by
  rw [hor_top hp hx hh] at hη hξ
  rw [metricE_tmp hp hh, frob_blk hp hη hξ]
  have r := r2_mul_r2
  refine gI_dot (f1 := fun z => 2 * z) (f2 := fun z => 2 * r2 * z) (f3 := fun z => r2 * z) 4 2 (fun y z => by ring) (fun y z => ?_) (fun y z => ?_) hη hξ
  · linear_combination 4 * y * z * r
  · linear_combination y * z * r

/-- **C37 (symmetric fixed rank, isometry, second metric).** -/
theorem C37_sym_isometry_hgz (hp : p ≤ n) (hx : IsPt x) (hh : IsHou1 x h) {η ξ : Matrix (Fin n) (Fin p) ℝ} (hη : IsHor metricH x η) (hξ : IsHor metricH x ξ) :
    dot (intrH h η) (intrH h ξ) = metricH x η ξ := by
  rw [hor_top hp hx hh] at hη hξ
  rw [metricH_tmp hp hh, frob_split hp]
  have r := r2_mul_r2
  have := gI_dot (f1 := fun z => z) (f2 := fun z => r2 * z) (f3 := fun z => z) 1 1 (fun y z => by ring) (fun y z => by linear_combination y * z * r) (fun y z => by ring) hη hξ
  rw [one_mul, one_mul] at this
  exact this

/-- **C37 (symmetric fixed rank, intrinsic → extrinsic → intrinsic).** The extrinsic vector is horizontal. -/
theorem C37_sym_intr_extr (hp : p ≤ n) (hx : IsPt x) (hh : IsHou1 x h) (jk : Nat → ℝ) (c : List ℝ) (hc : c.length = n * p - p * (p - 1) / 2) :
    intrE h (extrE jk h c) = c ∧ IsHor metricH x (extrE jk h c) ∧ intrH h (extrH jk h c) = c ∧ IsHor metricH x (extrH jk h c) := by
  rw [← dim_eq hp] at hc
  have r := r2_ne
  refine ⟨?_, ?_, ?_, ?_⟩
  · rw [intrE, extrE, tmpL_back hp hx hh]
    exact gI_gW (f1 := fun z => 2 * z) (f2 := fun z => 2 * r2 * z) (f3 := fun z => r2 * z) (g1 := fun z => z / 2) (g2 := fun z => z / r2 / 2) (g3 := fun z => z / r2) hp
      (fun z => by ring) (fun z => by field_simp) (fun z => by field_simp) jk c hc
  · rw [hor_top hp hx hh, extrE, tmpL_back hp hx hh]
    exact gW_sym (g1 := fun z => z / 2) (g2 := fun z => z / r2 / 2) (g3 := fun z => z / r2) hp jk _
  · rw [intrH, extrH, tmpL_back hp hx hh]
    exact gI_gW (f1 := fun z => z) (f2 := fun z => r2 * z) (f3 := fun z => z) (g1 := fun z => z) (g2 := fun z => z / r2) (g3 := fun z => z) hp
      (fun z => rfl) (fun z => by field_simp) (fun z => rfl) jk c hc
  · rw [hor_top hp hx hh, extrH, tmpL_back hp hx hh]
    exact gW_sym (g1 := fun z => z) (g2 := fun z => z / r2) (g3 := fun z => z) hp jk _

/-- **C37 (symmetric fixed rank, extrinsic → intrinsic → extrinsic).** Horizontal vectors come back. -/
theorem C37_sym_extr_intr (hp : p ≤ n) (hx : IsPt x) (hh : IsHou1 x h) (jk : Nat → ℝ) {η : Matrix (Fin n) (Fin p) ℝ} (hη : IsHor metricH x η) :
    extrE jk h (intrE h η) = η ∧ extrH jk h (intrH h η) = η := by
  rw [hor_top hp hx hh] at hη
  have r := r2_ne
  constructor
  · refine back_tmpL hp hx hh ?_
    exact gW_gI (f1 := fun z => 2 * z) (f2 := fun z => 2 * r2 * z) (f3 := fun z => r2 * z) (g1 := fun z => z / 2) (g2 := fun z => z / r2 / 2) (g3 := fun z => z / r2) hp
      (fun z => by ring) (fun z => by field_simp) (fun z => by field_simp) jk _ hη
  · refine back_tmpL hp hx hh ?_
    exact gW_gI (f1 := fun z => z) (f2 := fun z => r2 * z) (f3 := fun z => z) (g1 := fun z => z) (g2 := fun z => z / r2) (g3 := fun z => z) hp
      (fun z => rfl) (fun z => by field_simp) (fun z => rfl) jk _ hη

/-! ## C46 -/

/-- **C46 (symmetric fixed rank, transport by parallelisation, first metric).** The transported vector is horizontal at the new point, metrics are kept, and transporting back
gives the vector. -/
theorem C46_sym_transport_euc (hp : p ≤ n) {y : Matrix (Fin n) (Fin p) ℝ} {k : Hou1 n p} (hx : IsPt x) (hh : IsHou1 x h) (hy : IsPt y) (hk : IsHou1 y k) (jk : Nat → ℝ)
    {η ξ : Matrix (Fin n) (Fin p) ℝ} (hη : IsHor metricH x η) (hξ : IsHor metricH x ξ) :
    IsHor metricH y (transE jk h k ξ) ∧ metricE y (transE jk h k η) (transE jk h k ξ) = metricE x η ξ ∧ transE jk k h (transE jk h k ξ) = ξ := by
  have a := C37_sym_intr_extr hp hy hk jk _ (C37_sym_dim hp h η).1
  have b := C37_sym_intr_extr hp hy hk jk _ (C37_sym_dim hp h ξ).1
  refine ⟨b.2.1, ?_, ?_⟩
  · rw [transE, transE, ← C37_sym_isometry_euc hp hy hk a.2.1 b.2.1, a.1, b.1, C37_sym_isometry_euc hp hx hh hη hξ]
  · conv_lhs => rw [transE, transE]
    rw [b.1, (C37_sym_extr_intr hp hx hh jk hξ).1]

/-- **C46 (symmetric fixed rank, transport by parallelisation, second metric).** -/
theorem C46_sym_transport_hgz (hp : p ≤ n) {y : Matrix (Fin n) (Fin p) ℝ} {k : Hou1 n p} (hx : IsPt x) (hh : IsHou1 x h) (hy : IsPt y) (hk : IsHou1 y k) (jk : Nat → ℝ)
    {η ξ : Matrix (Fin n) (Fin p) ℝ} (hη : IsHor metricH x η) (hξ : IsHor metricH x ξ) :
    IsHor metricH y (transH jk h k ξ) ∧ metricH y (transH jk h k η) (transH jk h k ξ) = metricH x η ξ ∧ transH jk k h (transH jk h k ξ) = ξ := by
  have a := C37_sym_intr_extr hp hy hk jk _ (C37_sym_dim hp h η).2
  have b := C37_sym_intr_extr hp hy hk jk _ (C37_sym_dim hp h ξ).2
  refine ⟨b.2.2.2, ?_, ?_⟩
  · rw [transH, transH, ← C37_sym_isometry_hgz hp hy hk a.2.2.2 b.2.2.2, a.2.2.1, b.2.2.1, C37_sym_isometry_hgz hp hx hh hη hξ]
  · conv_lhs => rw [transH, transH]
    rw [b.2.2.1, (C37_sym_extr_intr hp hx hh jk hξ).2]

/-! ## C82 -/

/-- **C82 (transport by projection, partial).** If the vector is horizontal at the new point as well, intrinsic and extrinsic vectors are transported alike. Missing: all other vectors
(see the negation below). -/
theorem C82_sym_projection_partial (hp : p ≤ n) {y : Matrix (Fin n) (Fin p) ℝ} {k : Hou1 n p} (hx : IsPt x) (hh : IsHou1 x h) (hy : IsPt y) (jk : Nat → ℝ)
    {ξ : Matrix (Fin n) (Fin p) ℝ} (hξ : IsHor metricH x ξ) (hξ' : IsHor metricH y ξ) :
    transProjE jk h k (intrE h ξ) = intrE k (transProj y ξ) ∧ transProjH jk h k (intrH h ξ) = intrH k (transProj y ξ) := by
  obtain ⟨a, b⟩ := C37_sym_extr_intr hp hx hh jk hξ
  rw [transProjE, transProjH, a, b, transProj, (C80_projection hy ξ).2.2.2.1 hξ']
  exact ⟨rfl, rfl⟩

/-- The identity. -/
def idx2 : Matrix (Fin 2) (Fin 2) ℝ := !![1, 0; 0, 1]

/-- A triangular point. -/
def tri2 : Matrix (Fin 2) (Fin 2) ℝ := !![1, 1; 0, 1]

/-- A symmetric vector. -/
def vec2 : Matrix (Fin 2) (Fin 2) ℝ := !![0, 0; 0, 1]

theorem hou_id : IsHou1 idx2 ⟨1, idx2⟩ := by
  refine ⟨by simp, ?_⟩
  ext i j
  fin_cases i <;> fin_cases j <;> simp [upper, idx2]

theorem hou_tri : IsHou1 tri2 ⟨1, tri2⟩ := by
  refine ⟨by simp, ?_⟩
  ext i j
  fin_cases i <;> fin_cases j <;> simp [upper, tri2]

theorem pt_id : IsPt idx2 := by
  simp [IsPt, idx2, Matrix.det_fin_two, Matrix.mul_apply]

theorem pt_tri : IsPt tri2 := by
  simp [IsPt, tri2, Matrix.det_fin_two, Matrix.mul_apply, Fin.sum_univ_two]

theorem hor_vec : IsHor metricH idx2 vec2 := by
  rw [hor_H]
  ext i j
  fin_cases i <;> fin_cases j <;> simp [idx2, vec2, Matrix.mul_apply, Fin.sum_univ_two]

theorem low_tri : lowL tri2 = !![1, 0; 1, 1] := by
  ext i j
  fin_cases i <;> fin_cases j <;> simp [lowL, tri2, flat]

theorem tmp_tri (ξ : Matrix (Fin 2) (Fin 2) ℝ) : tmpL ⟨1, tri2⟩ ξ = ξ * !![1, 0; 1, 1] := by
  have : orthO (1 : Matrix (Fin 2) (Fin 2) ℝ) tri2 = 1 := by
    rw [orthO, Matrix.one_mul, ← diagonal_one]
    congr 1
    funext i
    fin_cases i <;> simp [rowSigns, tri2]
  rw [tmpL_eq, this, transpose_one, Matrix.one_mul, low_tri]

theorem proj_tri : proj tri2 vec2 = !![-1 / 2, 1 / 2; -1 / 2, 1] := by
  have hi : (tri2ᴴ * tri2)⁻¹ = !![2, -1; -1, 1] := by
    apply inv_eq_right_inv
    ext i j
    fin_cases i <;> fin_cases j <;> simp [tri2, Matrix.mul_apply, Fin.sum_univ_two] <;> norm_num
  have h2 : (tri2ᴴ * tri2)⁻¹ * (tri2ᴴ * vec2) = !![0, -1; 0, 1] := by
    have : tri2ᴴ * vec2 = !![0, 0; 0, 1] := by
      ext i j
      fin_cases i <;> fin_cases j <;> simp [tri2, vec2, Matrix.mul_apply, Fin.sum_univ_two]
    rw [hi, this]
    ext i j
    fin_cases i <;> fin_cases j <;> simp
  have h3 : (!![0, -1; 0, 1] : Matrix (Fin 2) (Fin 2) ℝ) - (!![0, -1; 0, 1] : Matrix (Fin 2) (Fin 2) ℝ)ᴴ = !![0, -1; 1, 0] := by
    ext i j
    fin_cases i <;> fin_cases j <;> simp
  rw [proj]
  simp only [h2, h3]
  ext i j
  fin_cases i <;> fin_cases j <;> simp [tri2, vec2, Matrix.mul_apply, Fin.sum_univ_two] <;> norm_num

/-- **C82 (transport by projection, negation).** The intrinsic transport by projection is not the extrinsic one: from the identity to `[1 1; 0 1]`, vector `[0 0; 0 1]`; both metrics. -/
theorem C82_sym_projection_fails (jk : Nat → ℝ) : ∃ (x y ξ : Matrix (Fin 2) (Fin 2) ℝ) (h k : Hou1 2 2), IsPt x ∧ IsPt y ∧ IsHou1 x h ∧ IsHou1 y k ∧ IsHor metricH x ξ ∧
    transProjE jk h k (intrE h ξ) ≠ intrE k (transProj y ξ) ∧ transProjH jk h k (intrH h ξ) ≠ intrH k (transProj y ξ) := by
  obtain ⟨a, b⟩ := C37_sym_extr_intr le_rfl pt_id hou_id jk hor_vec
  refine ⟨idx2, tri2, vec2, ⟨1, idx2⟩, ⟨1, tri2⟩, pt_id, pt_tri, hou_id, hou_tri, hor_vec, ?_, ?_⟩
  · rw [transProjE, a, transProj, proj_tri]
    intro e
    have := congrArg (fun l => buf l 2) e
    simp [intrE, intrLoopsE, tmp_tri, pairs, rest, flat, buf, vec2, List.range_succ, Matrix.mul_apply, Fin.sum_univ_two, r2_ne] at this
  · rw [transProjH, b, transProj, proj_tri]
    intro e
    have := congrArg (fun l => buf l 2) e
    simp [intrH, intrLoopsH, tmp_tri, pairs, rest, flat, buf, vec2, List.range_succ, Matrix.mul_apply, Fin.sum_univ_two, r2_ne] at this

/-- The hypotheses of C37 and C46 hold at two different points. -/
example : IsPt idx2 ∧ IsPt tri2 ∧ IsHou1 idx2 ⟨1, idx2⟩ ∧ IsHou1 tri2 ⟨1, tri2⟩ ∧ IsHor metricH idx2 vec2 := ⟨pt_id, pt_tri, hou_id, hou_tri, hor_vec⟩

end Verif.SymFR
