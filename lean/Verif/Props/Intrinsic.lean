import Verif.Manifold.IntrinsicLemmas
import Verif.Props.Stiefel
import Mathlib.Tactic.FieldSimp
import Mathlib.Tactic.LinearCombination

/-!
# C37: intrinsic and extrinsic representations
-/

set_option linter.unusedSectionVars false
set_option linter.unusedVariables false

namespace Verif.Intr

open Matrix Verif.Elem Verif.Mat
open Verif.Stiefel (IsTangent IsHorizontal)

variable {n p : Nat}

/-! ### Dimensions: the intrinsic vectors have the advertised number of entries -/

/-- **C37 (dimension, Stiefel).** `n p - p (p + 1) / 2` coordinates (Stiefel.cpp:19). -/
theorem C37_stiefel_dim (hp : p ≤ n) (Q : Matrix (Fin n) (Fin n) ℝ) (R η : Matrix (Fin n) (Fin p) ℝ) :
    (stiefelIntr Q R η).length = n * p - p * (p + 1) / 2 := by
  have h1 := two_mul_length_pairs p
  have h2 : p * (n - p) + p * p = n * p := by
    rw [← Nat.mul_add, Nat.sub_add_cancel hp, Nat.mul_comm]
  have h3 : p * (p + 1) = p * (p - 1) + 2 * p := by
    rcases p with _ | p
    · rfl
    · simp only [Nat.add_sub_cancel]; ring
  have h4 : p * p = p * (p - 1) + p := by
    rcases p with _ | p
    · rfl
    · simp only [Nat.add_sub_cancel]; ring
  simp only [stiefelIntr, skewIntr, List.length_append, List.length_map, length_rest]
  omega

/-- **C37 (dimension, Grassmann).** `(n - p) p` coordinates (Grassmann.cpp:16). -/
theorem C37_grassmann_dim (Q : Matrix (Fin n) (Fin n) ℝ) (η : Matrix (Fin n) (Fin p) ℝ) : (grassIntr Q η).length = (n - p) * p := by
  simp only [grassIntr, restIntr, List.length_map, length_rest, Nat.mul_comm]

theorem length_sym (n : Nat) : n + (pairs n).length = n * (n + 1) / 2 := by
  have h1 := two_mul_length_pairs n
  have h3 : n * (n + 1) = n * (n - 1) + 2 * n := by
    rcases n with _ | n
    · rfl
    · simp only [Nat.add_sub_cancel]; ring
  omega

/-- **C37 (dimension, SPD).** `n (n + 1) / 2` coordinates (SPDManifold.cpp:13). -/
theorem C37_spd_dim (L η : Matrix (Fin n) (Fin n) ℝ) : (spdIntrAF L η).length = n * (n + 1) / 2 ∧ (spdIntrEuc η).length = n * (n + 1) / 2 := by
  simp only [spdIntrAF, spdIntrEuc, symIntr, List.length_append, List.length_map, List.length_range, length_sym, and_self]

/-- **C37 (dimension, normal space of Stiefel).** `p (p + 1) / 2` coordinates. -/
theorem C37_normal_dim (x η : Matrix (Fin n) (Fin p) ℝ) : (normalIntr x η).length = p * (p + 1) / 2 := by
  simp only [normalIntr, norIntr, List.length_append, List.length_map, List.length_range, length_sym]

/-! ### The loops -/

theorem flat_unflat (b : Nat → ℝ) {i j : Nat} (hi : i < n) (hj : j < p) : flat (unflat n p b) (i + j * n) = b (i + j * n) := by
  rw [flat_apply _ hi hj]; rfl

/-- The square on top is skew. -/
def TopSkew (n p : Nat) (t : Nat → ℝ) : Prop := ∀ i j, i < p → j < p → t (i + j * n) = -t (j + i * n)

theorem skew_extr_intr (hp : p ≤ n) (junk : Nat → ℝ) (A : Matrix (Fin n) (Fin p) ℝ) (hA : TopSkew n p (flat A)) :
    unflat n p (writeAll junk (skewExtrWrites n p (buf (skewIntr n p (flat A))))) = A := by
  ext ⟨i, hi⟩ ⟨j, hj⟩
  show writeAll junk _ (i + j * n) = _
  rw [← flat_apply A hi hj]
  by_cases hip : i < p
  · rcases Nat.lt_trichotomy i j with h | h | h
    · obtain ⟨k, hk⟩ := index_exists (mem_pairs.mpr ⟨h, hj⟩)
      rw [skewExtr_upper _ _ hp hk]
      have hb : buf (skewIntr n p (flat A)) k = r2 * (flat A (j + i * n) - flat A (i + j * n)) / 2 := buf_map_left hk
      have hs := hA i j hip hj
      rw [hb, hs]
      field_simp [r2_ne]
      ring
    · subst h
      rw [skewExtr_diag _ _ hp hj]
      have := hA i i hj hj
      linarith
    · obtain ⟨k, hk⟩ := index_exists (mem_pairs.mpr ⟨h, hip⟩)
      rw [skewExtr_lower _ _ hp hk]
      have hb : buf (skewIntr n p (flat A)) k = r2 * (flat A (i + j * n) - flat A (j + i * n)) / 2 := buf_map_left hk
      have hs := hA j i hj hip
      rw [hb, hs]
      field_simp [r2_ne]
      ring
  · obtain ⟨k, hk⟩ := index_exists (mem_rest.mpr ⟨hj, not_lt.mp hip, hi⟩)
    rw [skewExtr_rest _ _ hp hk]
    have hb := buf_map_right (f := fun q : Nat × Nat => flat A (q.2 + q.1 * n))
      (m := (pairs p).map (fun q => r2 * (flat A (q.2 + q.1 * n) - flat A (q.1 + q.2 * n)) / 2)) hk
    rw [List.length_map] at hb
    exact hb

theorem skew_intr_extr (hp : p ≤ n) (junk : Nat → ℝ) (c : List ℝ) (hc : c.length = (pairs p).length + (rest n p).length) :
    skewIntr n p (flat (unflat n p (writeAll junk (skewExtrWrites n p (buf c))))) = c := by
  refine list_of_buf _ _ c hc ?_ ?_
  · rintro k ⟨i, j⟩ hk
    have hij := idx_of_pair hk
    simp only []
    rw [flat_unflat _ (by omega) (by omega), flat_unflat _ (by omega) (by omega), skewExtr_lower _ _ hp hk, skewExtr_upper _ _ hp hk]
    field_simp [r2_ne]
    ring
  · rintro k ⟨i, j⟩ hk
    have hij := idx_of_rest hk
    simp only []
    rw [flat_unflat _ (by omega) (by omega), skewExtr_rest _ _ hp hk]

theorem skew_extr_top (hp : p ≤ n) (junk c : Nat → ℝ) : TopSkew n p (flat (unflat n p (writeAll junk (skewExtrWrites n p c)))) := by
  intro i j hi hj
  rw [flat_unflat _ (by omega) hj, flat_unflat _ (by omega) hi]
  rcases Nat.lt_trichotomy i j with h | h | h
  · obtain ⟨k, hk⟩ := index_exists (mem_pairs.mpr ⟨h, hj⟩)
    rw [skewExtr_upper _ _ hp hk, skewExtr_lower _ _ hp hk]
  · subst h
    rw [skewExtr_diag _ _ hp hj, neg_zero]
  · obtain ⟨k, hk⟩ := index_exists (mem_pairs.mpr ⟨h, hi⟩)
    rw [skewExtr_upper _ _ hp hk, skewExtr_lower _ _ hp hk, neg_neg]

theorem skew_isometry (hp : p ≤ n) (A B : Matrix (Fin n) (Fin p) ℝ) (hA : TopSkew n p (flat A)) (hB : TopSkew n p (flat B)) :
    dot (skewIntr n p (flat A)) (skewIntr n p (flat B)) = frob A B := by
  rw [frob_split hp, skewIntr, skewIntr, dot_append (by simp), dot_map, dot_map, add_left_inj,
    Finset.sum_comm, sum_square p fun i j => flat A (i + j * n) * flat B (i + j * n)]
  have h0 : ∑ i ∈ Finset.range p, flat A (i + i * n) * flat B (i + i * n) = 0 := by
    refine Finset.sum_eq_zero fun i hi => ?_
    have hi := Finset.mem_range.mp hi
    have h : flat A (i + i * n) = 0 := by have := hA i i hi hi; linarith
    rw [h, zero_mul]
  rw [h0, zero_add]
  congr 1
  refine List.map_congr_left ?_
  rintro ⟨i, j⟩ hq
  have hij := mem_pairs.mp hq
  have ha := hA i j (by omega) (by omega)
  have hb := hB i j (by omega) (by omega)
  simp only []
  rw [ha, hb]
  have := r2_mul_r2
  linear_combination (flat A (j + i * n) * flat B (j + i * n)) * this

theorem rest_extr_intr (hp : p ≤ n) (junk : Nat → ℝ) (A : Matrix (Fin n) (Fin p) ℝ) (hA : ∀ i j, i < p → j < p → flat A (i + j * n) = 0) :
    unflat n p (writeAll junk (restExtrWrites n p (buf (restIntr n p (flat A))))) = A := by
  ext ⟨i, hi⟩ ⟨j, hj⟩
  show writeAll junk _ (i + j * n) = _
  rw [← flat_apply A hi hj]
  by_cases hip : i < p
  · rw [restExtr_top _ _ hp hj hip, hA i j hip hj]
  · obtain ⟨k, hk⟩ := index_exists (mem_rest.mpr ⟨hj, not_lt.mp hip, hi⟩)
    rw [restExtr_rest _ _ hp hk]
    have := buf_map_left (f := fun q : Nat × Nat => flat A (q.2 + q.1 * n)) (m := []) hk
    rw [List.append_nil] at this
    exact this

theorem rest_intr_extr (hp : p ≤ n) (junk : Nat → ℝ) (c : List ℝ) (hc : c.length = (rest n p).length) :
    restIntr n p (flat (unflat n p (writeAll junk (restExtrWrites n p (buf c))))) = c := by
  have h := list_of_buf (rest n p) ([] : List Nat) c (by simpa using hc) (f := fun q => flat (unflat n p (writeAll junk (restExtrWrites n p (buf c)))) (q.2 + q.1 * n))
    (g := fun _ => 0) ?_ (by simp)
  · unfold restIntr
    simpa using h
  · rintro k ⟨i, j⟩ hk
    have hij := idx_of_rest hk
    simp only []
    rw [flat_unflat _ (by omega) (by omega), restExtr_rest _ _ hp hk]

theorem rest_isometry (hp : p ≤ n) (A B : Matrix (Fin n) (Fin p) ℝ) (hA : ∀ i j, i < p → j < p → flat A (i + j * n) = 0) :
    dot (restIntr n p (flat A)) (restIntr n p (flat B)) = frob A B := by
  rw [frob_split hp, restIntr, restIntr, dot_map, Finset.sum_eq_zero, zero_add]
  intro j hj
  refine Finset.sum_eq_zero fun i hi => ?_
  rw [hA i j (Finset.mem_range.mp hi) (Finset.mem_range.mp hj), zero_mul]

theorem flat_sym {S : Matrix (Fin n) (Fin n) ℝ} (hS : Sᵀ = S) {i j : Nat} (hi : i < n) (hj : j < n) : flat S (i + j * n) = flat S (j + i * n) := by
  rw [flat_apply S hi hj, flat_apply S hj hi]
  conv_lhs => rw [← hS]
  rfl

theorem sym_extr_of (junk : Nat → ℝ) {S : Matrix (Fin n) (Fin n) ℝ} (hS : Sᵀ = S) (c : List ℝ) (hd : ∀ i < n, buf c i = flat S (i + i * n))
    (hp : ∀ i j k, (pairs n)[k]? = some (i, j) → buf c (n + k) = r2 * flat S (j + i * n)) :
    unflat n n (writeAll junk (symExtrWrites n (buf c))) = S := by
  ext ⟨i, hi⟩ ⟨j, hj⟩
  show writeAll junk _ (i + j * n) = _
  rw [← flat_apply S hi hj]
  rcases Nat.lt_trichotomy i j with h | h | h
  · obtain ⟨k, hk⟩ := index_exists (mem_pairs.mpr ⟨h, hj⟩)
    rw [(symExtr_pair _ _ hk).2, hp i j k hk, flat_sym hS hi hj]
    field_simp [r2_ne]
  · subst h
    rw [symExtr_diag _ _ hj, hd i hi]
  · obtain ⟨k, hk⟩ := index_exists (mem_pairs.mpr ⟨h, hi⟩)
    rw [(symExtr_pair _ _ hk).1, hp j i k hk]
    field_simp [r2_ne]

theorem buf_range (f : Nat → ℝ) (m : List ℝ) {i : Nat} (hi : i < n) : buf ((List.range n).map f ++ m) i = f i :=
  buf_map_left (by simp [hi])

theorem sym_extr_intr (junk : Nat → ℝ) {S : Matrix (Fin n) (Fin n) ℝ} (hS : Sᵀ = S) :
    unflat n n (writeAll junk (symExtrWrites n (buf (symIntr n (flat S))))) = S := by
  refine sym_extr_of junk hS _ (fun i hi => buf_range _ _ hi) fun i j k hk => ?_
  have := buf_map_right (f := fun q : Nat × Nat => flat S (q.2 + q.1 * n) * r2) (m := (List.range n).map fun i => flat S (i + i * n)) hk
  simp only [List.length_map, List.length_range] at this
  exact this.trans (mul_comm _ _)

theorem nor_extr_intr (junk : Nat → ℝ) {S : Matrix (Fin n) (Fin n) ℝ} (hS : Sᵀ = S) :
    unflat n n (writeAll junk (symExtrWrites n (buf (norIntr n (flat S))))) = S := by
  refine sym_extr_of junk hS _ (fun i hi => buf_range _ _ hi) fun i j k hk => ?_
  have hij := idx_of_pair hk
  have := buf_map_right (f := fun q : Nat × Nat => (flat S (q.1 + q.2 * n) + flat S (q.2 + q.1 * n)) / r2) (m := (List.range n).map fun i => flat S (i + i * n)) hk
  simp only [List.length_map, List.length_range] at this
  refine this.trans ?_
  rw [flat_sym hS (by omega : i < n) hij.2, div_eq_iff r2_ne]
  linear_combination (-flat S (j + i * n)) * r2_mul_r2

theorem sym_extr_sym (junk c : Nat → ℝ) : (unflat n n (writeAll junk (symExtrWrites n c)))ᵀ = unflat n n (writeAll junk (symExtrWrites n c)) := by
  ext ⟨i, hi⟩ ⟨j, hj⟩
  show writeAll junk _ (j + i * n) = writeAll junk _ (i + j * n)
  rcases Nat.lt_trichotomy i j with h | h | h
  · obtain ⟨k, hk⟩ := index_exists (mem_pairs.mpr ⟨h, hj⟩)
    rw [(symExtr_pair _ _ hk).1, (symExtr_pair _ _ hk).2]
  · subst h; rfl
  · obtain ⟨k, hk⟩ := index_exists (mem_pairs.mpr ⟨h, hi⟩)
    rw [(symExtr_pair _ _ hk).1, (symExtr_pair _ _ hk).2]

theorem sym_intr_extr (junk : Nat → ℝ) (c : List ℝ) (hc : c.length = n * (n + 1) / 2) :
    symIntr n (flat (unflat n n (writeAll junk (symExtrWrites n (buf c))))) = c := by
  refine list_of_buf _ _ c (by rw [hc, List.length_range, length_sym]) ?_ ?_
  · intro k q hk
    obtain ⟨a, e⟩ := List.getElem?_eq_some_iff.mp hk
    simp only [List.length_range] at a
    simp only [List.getElem_range] at e
    subst e
    rw [flat_unflat _ a a, symExtr_diag _ _ a]
  · rintro k ⟨i, j⟩ hk
    have hij := idx_of_pair hk
    simp only [List.length_range]
    rw [flat_unflat _ (by omega) (by omega), (symExtr_pair _ _ hk).1]
    field_simp [r2_ne]

theorem nor_intr_extr (junk : Nat → ℝ) (c : List ℝ) (hc : c.length = n * (n + 1) / 2) :
    norIntr n (flat (unflat n n (writeAll junk (symExtrWrites n (buf c))))) = c := by
  refine list_of_buf _ _ c (by rw [hc, List.length_range, length_sym]) ?_ ?_
  · intro k q hk
    obtain ⟨a, e⟩ := List.getElem?_eq_some_iff.mp hk
    simp only [List.length_range] at a
    simp only [List.getElem_range] at e
    subst e
    rw [flat_unflat _ a a, symExtr_diag _ _ a]
  · rintro k ⟨i, j⟩ hk
    have hij := idx_of_pair hk
    simp only [List.length_range]
    rw [flat_unflat _ (by omega) (by omega), flat_unflat _ (by omega) (by omega), (symExtr_pair _ _ hk).1, (symExtr_pair _ _ hk).2]
    rw [div_eq_iff r2_ne, ← add_div, div_eq_iff r2_ne, mul_assoc, r2_mul_r2]
    ring

theorem sym_isometry {S T : Matrix (Fin n) (Fin n) ℝ} (hS : Sᵀ = S) (hT : Tᵀ = T) : dot (symIntr n (flat S)) (symIntr n (flat T)) = frob S T := by
  rw [frob_range, symIntr, symIntr, dot_append (by simp), dot_map, dot_map, Finset.sum_comm,
    sum_square n fun i j => flat S (i + j * n) * flat T (i + j * n), sum_range_list, add_right_inj]
  congr 1
  refine List.map_congr_left ?_
  rintro ⟨i, j⟩ hq
  have hij := mem_pairs.mp hq
  simp only []
  rw [flat_sym hS (by omega : i < n) hij.2, flat_sym hT (by omega : i < n) hij.2]
  linear_combination (flat S (j + i * n) * flat T (j + i * n)) * r2_mul_r2

theorem nor_eq_sym {S : Matrix (Fin n) (Fin n) ℝ} (hS : Sᵀ = S) : norIntr n (flat S) = symIntr n (flat S) := by
  unfold norIntr symIntr
  congr 1
  refine List.map_congr_left ?_
  rintro ⟨i, j⟩ hq
  have hij := mem_pairs.mp hq
  simp only []
  rw [flat_sym hS (by omega : i < n) hij.2, div_eq_iff r2_ne]
  linear_combination (-flat S (j + i * n)) * r2_mul_r2

/-! ### The Householder frame -/

/-- Specification of the factorisation stored in the fields `_HHR`, `_tau` of `x` (`geqrf`): `Q` orthogonal, `R` upper triangular, `x = Q R`. -/
structure IsQR (x : Matrix (Fin n) (Fin p) ℝ) (Q : Matrix (Fin n) (Fin n) ℝ) (R : Matrix (Fin n) (Fin p) ℝ) : Prop where
  orth : Qᵀ * Q = 1
  upper : ∀ (i : Fin n) (j : Fin p), j.1 < i.1 → R i j = 0
  eq : x = Q * R

theorem IsQR.orth' {x R : Matrix (Fin n) (Fin p) ℝ} {Q : Matrix (Fin n) (Fin n) ℝ} (h : IsQR x Q R) : Q * Qᵀ = 1 := mul_eq_one_comm.mp h.orth

theorem IsQR.gram {x R : Matrix (Fin n) (Fin p) ℝ} {Q : Matrix (Fin n) (Fin n) ℝ} (h : IsQR x Q R) : Rᵀ * R = xᵀ * x := by
  rw [h.eq, transpose_mul, Matrix.mul_assoc, ← Matrix.mul_assoc Qᵀ, h.orth, Matrix.one_mul]

/-- The triangle of an orthonormal matrix is diagonal with entries `±1`. -/
theorem qr_diag {x R : Matrix (Fin n) (Fin p) ℝ} {Q : Matrix (Fin n) (Fin n) ℝ} (hp : p ≤ n) (h : IsQR x Q R) (hx : xᵀ * x = 1) :
    ∀ (i : Nat) (hi : i < p), R ⟨i, by omega⟩ ⟨i, hi⟩ * R ⟨i, by omega⟩ ⟨i, hi⟩ = 1 ∧ ∀ j : Fin p, j.1 ≠ i → R ⟨i, by omega⟩ j = 0 := by
  have hg : Rᵀ * R = 1 := h.gram.trans hx
  have key : ∀ (i : Nat) (hi : i < p), (∀ k (hk : k < i), ∀ j : Fin p, j.1 ≠ k → R ⟨k, by omega⟩ j = 0) → ∀ j : Fin p,
      R ⟨i, by omega⟩ ⟨i, hi⟩ * R ⟨i, by omega⟩ j = (1 : Matrix (Fin p) (Fin p) ℝ) ⟨i, hi⟩ j := by
    intro i hi ih j
    rw [← hg, mul_apply]
    rw [Finset.sum_eq_single_of_mem (⟨i, by omega⟩ : Fin n) (Finset.mem_univ _)]
    · rfl
    · intro k _ hk
      rw [transpose_apply]
      rcases Nat.lt_trichotomy k.1 i with hlt | heq | hgt
      · rw [ih k.1 hlt ⟨i, hi⟩ (by simp; omega), zero_mul]
      · exact absurd (Fin.ext heq) hk
      · rw [h.upper k ⟨i, hi⟩ hgt, zero_mul]
  intro i
  induction i using Nat.strong_induction_on with
  | _ i ih =>
    intro hi
    have hk := key i hi (fun k hk j hj => (ih k hk (by omega)).2 j hj)
    have h1 : R ⟨i, by omega⟩ ⟨i, hi⟩ * R ⟨i, by omega⟩ ⟨i, hi⟩ = 1 := by rw [hk, one_apply_eq]
    refine ⟨h1, fun j hj => ?_⟩
    have h2 := hk j
    rw [one_apply_ne (by intro e; exact hj (by rw [← e]))] at h2
    rcases mul_eq_zero.mp h2 with h3 | h3
    · rw [h3] at h1; simp at h1
    · exact h3

theorem rowSigns_eq {x R : Matrix (Fin n) (Fin p) ℝ} {Q : Matrix (Fin n) (Fin n) ℝ} (hp : p ≤ n) (h : IsQR x Q R) (hx : xᵀ * x = 1) (i : Nat) (hi : i < p) :
    rowSigns R ⟨i, by omega⟩ = R ⟨i, by omega⟩ ⟨i, hi⟩ := by
  have h1 := (qr_diag hp h hx i hi).1
  unfold rowSigns
  rw [dif_pos hi]
  rcases mul_self_eq_one_iff.mp h1 with e | e
  · rw [e]; norm_num
  · rw [e]; norm_num

theorem rowSigns_mul_self (R : Matrix (Fin n) (Fin p) ℝ) (i : Fin n) : rowSigns R i * rowSigns R i = 1 := by
  unfold rowSigns
  split
  · split <;> norm_num
  · norm_num

theorem scale_scale (R A : Matrix (Fin n) (Fin p) ℝ) : scaleRows (rowSigns R) (scaleRows (rowSigns R) A) = A := by
  ext i j
  simp only [scaleRows]
  rw [← mul_assoc, rowSigns_mul_self, one_mul]

/-- The top of the transformed vector is `xᵀ η`. -/
theorem top_entry {x R : Matrix (Fin n) (Fin p) ℝ} {Q : Matrix (Fin n) (Fin n) ℝ} (hp : p ≤ n) (h : IsQR x Q R) (hx : xᵀ * x = 1) (η : Matrix (Fin n) (Fin p) ℝ)
    {i j : Nat} (hi : i < p) (hj : j < p) : flat (scaleRows (rowSigns R) (Qᵀ * η)) (i + j * n) = (xᵀ * η) ⟨i, hi⟩ ⟨j, hj⟩ := by
  rw [flat_apply _ (by omega) hj]
  have e : xᵀ * η = Rᵀ * (Qᵀ * η) := by rw [h.eq, transpose_mul, Matrix.mul_assoc]
  rw [e, mul_apply, Finset.sum_eq_single_of_mem (⟨i, by omega⟩ : Fin n) (Finset.mem_univ _)]
  · simp only [scaleRows, transpose_apply]
    rw [rowSigns_eq hp h hx i hi]
  · intro k _ hk
    rw [transpose_apply]
    by_cases hkp : k.1 < p
    · rw [(qr_diag hp h hx k.1 hkp).2 ⟨i, hi⟩ (fun e => hk (Fin.ext e.symm)), zero_mul]
    · rw [h.upper k ⟨i, hi⟩ (by simp; omega), zero_mul]

theorem top_skew {x R : Matrix (Fin n) (Fin p) ℝ} {Q : Matrix (Fin n) (Fin n) ℝ} (hp : p ≤ n) (h : IsQR x Q R) (hx : xᵀ * x = 1) {η : Matrix (Fin n) (Fin p) ℝ} :
    IsTangent x η ↔ TopSkew n p (flat (scaleRows (rowSigns R) (Qᵀ * η))) := by
  constructor
  · intro hη i j hi hj
    rw [top_entry hp h hx η hi hj, top_entry hp h hx η hj hi]
    have : (xᵀ * η)ᵀ ⟨j, hj⟩ ⟨i, hi⟩ = (-(xᵀ * η)) ⟨j, hj⟩ ⟨i, hi⟩ := by rw [show (xᵀ * η)ᵀ = -(xᵀ * η) from hη]
    rw [transpose_apply, Matrix.neg_apply] at this
    exact this
  · intro hs
    show (xᵀ * η)ᵀ = -(xᵀ * η)
    ext ⟨i, hi⟩ ⟨j, hj⟩
    rw [transpose_apply, Matrix.neg_apply, ← top_entry hp h hx η hi hj, ← top_entry hp h hx η hj hi]
    exact hs j i hj hi

theorem frob_scale (R A B : Matrix (Fin n) (Fin p) ℝ) : frob (scaleRows (rowSigns R) A) (scaleRows (rowSigns R) B) = frob A B := by
  simp only [frob, scaleRows]
  refine Finset.sum_congr rfl fun i _ => Finset.sum_congr rfl fun j _ => ?_
  linear_combination (A i j * B i j) * rowSigns_mul_self R i

theorem frob_orth {Q : Matrix (Fin n) (Fin n) ℝ} (hQ : Q * Qᵀ = 1) (A B : Matrix (Fin n) (Fin p) ℝ) : frob (Qᵀ * A) (Qᵀ * B) = frob A B := by
  rw [frob_mul_left, transpose_transpose, ← Matrix.mul_assoc, hQ, Matrix.one_mul]

/-! ### C37 -/

section stiefel
variable {x R : Matrix (Fin n) (Fin p) ℝ} {Q : Matrix (Fin n) (Fin n) ℝ}

/-- **C37 (Stiefel, extrinsic → intrinsic → extrinsic).** For every point, every Householder factorisation of it, every tangent vector and whatever the memory contained. -/
theorem C37_stiefel_extr_intr (hp : p ≤ n) (h : IsQR x Q R) (hx : xᵀ * x = 1) {η : Matrix (Fin n) (Fin p) ℝ} (hη : IsTangent x η) (junk : Nat → ℝ) :
    stiefelExtr junk Q R (stiefelIntr Q R η) = η := by
  unfold stiefelExtr stiefelIntr
  rw [skew_extr_intr hp junk _ ((top_skew hp h hx).mp hη), scale_scale, ← Matrix.mul_assoc, h.orth', Matrix.one_mul]

/-- **C37 (Stiefel, intrinsic → extrinsic → intrinsic).** Every coordinate vector of the right length represents a tangent vector and is recovered from it. -/
theorem C37_stiefel_intr_extr (hp : p ≤ n) (h : IsQR x Q R) (hx : xᵀ * x = 1) (c : List ℝ) (hc : c.length = n * p - p * (p + 1) / 2) (junk : Nat → ℝ) :
    stiefelIntr Q R (stiefelExtr junk Q R c) = c ∧ IsTangent x (stiefelExtr junk Q R c) := by
  have hlen : c.length = (pairs p).length + (rest n p).length := by
    have := C37_stiefel_dim hp Q R (0 : Matrix (Fin n) (Fin p) ℝ)
    rw [hc, ← this]
    simp only [stiefelIntr, skewIntr, List.length_append, List.length_map]
  have e : scaleRows (rowSigns R) (Qᵀ * stiefelExtr junk Q R c) = unflat n p (writeAll junk (skewExtrWrites n p (buf c))) := by
    unfold stiefelExtr
    rw [← Matrix.mul_assoc, h.orth, Matrix.one_mul, scale_scale]
  constructor
  · unfold stiefelIntr
    rw [e, skew_intr_extr hp junk c hlen]
  · rw [top_skew hp h hx, e]
    exact skew_extr_top hp junk _

/-- **C37 (Stiefel, isometry).** The inner product of the coordinates is the Euclidean metric of the tangent vectors. -/
theorem C37_stiefel_isometry (hp : p ≤ n) (h : IsQR x Q R) (hx : xᵀ * x = 1) {η ξ : Matrix (Fin n) (Fin p) ℝ} (hη : IsTangent x η) (hξ : IsTangent x ξ) :
    dot (stiefelIntr Q R η) (stiefelIntr Q R ξ) = frob η ξ := by
  unfold stiefelIntr
  rw [skew_isometry hp _ _ ((top_skew hp h hx).mp hη) ((top_skew hp h hx).mp hξ), frob_scale, frob_orth h.orth']

/-- The rows `i < p` of `Qᵀ η` vanish for a horizontal vector. -/
theorem top_zero (hp : p ≤ n) (h : IsQR x Q R) (hx : xᵀ * x = 1) {η : Matrix (Fin n) (Fin p) ℝ} :
    IsHorizontal x η ↔ ∀ i j, i < p → j < p → flat (Qᵀ * η) (i + j * n) = 0 := by
  have e : ∀ i j (hi : i < p) (hj : j < p), rowSigns R ⟨i, by omega⟩ * flat (Qᵀ * η) (i + j * n) = (xᵀ * η) ⟨i, hi⟩ ⟨j, hj⟩ := by
    intro i j hi hj
    rw [← top_entry hp h hx η hi hj, flat_apply _ (by omega) hj, flat_apply _ (by omega) hj]
    rfl
  constructor
  · intro hη i j hi hj
    have h1 := e i j hi hj
    rw [show xᵀ * η = 0 from hη, Matrix.zero_apply] at h1
    rcases mul_eq_zero.mp h1 with h2 | h2
    · have h3 := rowSigns_mul_self R ⟨i, by omega⟩
      rw [h2] at h3; simp at h3
    · exact h2
  · intro h0
    show xᵀ * η = 0
    ext ⟨i, hi⟩ ⟨j, hj⟩
    rw [← e i j hi hj, h0 i j hi hj, mul_zero]; rfl

/-- **C37 (Grassmann, extrinsic → intrinsic → extrinsic).** -/
theorem C37_grassmann_extr_intr (hp : p ≤ n) (h : IsQR x Q R) (hx : xᵀ * x = 1) {η : Matrix (Fin n) (Fin p) ℝ} (hη : IsHorizontal x η) (junk : Nat → ℝ) :
    grassExtr junk Q (grassIntr Q η) = η := by
  unfold grassExtr grassIntr
  rw [rest_extr_intr hp junk _ ((top_zero hp h hx).mp hη), ← Matrix.mul_assoc, h.orth', Matrix.one_mul]

/-- **C37 (Grassmann, intrinsic → extrinsic → intrinsic).** -/
theorem C37_grassmann_intr_extr (hp : p ≤ n) (h : IsQR x Q R) (hx : xᵀ * x = 1) (c : List ℝ) (hc : c.length = (n - p) * p) (junk : Nat → ℝ) :
    grassIntr Q (grassExtr (p := p) junk Q c) = c ∧ IsHorizontal x (grassExtr (p := p) junk Q c) := by
  have hlen : c.length = (rest n p).length := by rw [hc, length_rest, Nat.mul_comm]
  have e : Qᵀ * grassExtr (p := p) junk Q c = unflat n p (writeAll junk (restExtrWrites n p (buf c))) := by
    unfold grassExtr
    rw [← Matrix.mul_assoc, h.orth, Matrix.one_mul]
  constructor
  · unfold grassIntr
    rw [e, rest_intr_extr hp junk c hlen]
  · rw [top_zero hp h hx, e]
    intro i j hi hj
    rw [flat_unflat _ (by omega) hj, restExtr_top _ _ hp hj hi]

/-- **C37 (Grassmann, isometry).** -/
theorem C37_grassmann_isometry (hp : p ≤ n) (h : IsQR x Q R) (hx : xᵀ * x = 1) {η : Matrix (Fin n) (Fin p) ℝ} (hη : IsHorizontal x η) (ξ : Matrix (Fin n) (Fin p) ℝ) :
    dot (grassIntr Q η) (grassIntr Q ξ) = frob η ξ := by
  unfold grassIntr
  rw [rest_isometry hp _ _ ((top_zero hp h hx).mp hη), frob_orth h.orth']

/-- **C37 (normal space of Stiefel).** Normal vectors are `x S` with `S` symmetric; the conversions are inverse to each other and isometric. -/
theorem C37_normal (hx : xᵀ * x = 1) (junk : Nat → ℝ) :
    (∀ S : Matrix (Fin p) (Fin p) ℝ, Sᵀ = S → normalExtr junk x (normalIntr x (x * S)) = x * S) ∧
    (∀ c : List ℝ, c.length = p * (p + 1) / 2 →
      normalIntr x (normalExtr junk x c) = c ∧ ∃ S : Matrix (Fin p) (Fin p) ℝ, Sᵀ = S ∧ normalExtr junk x c = x * S) ∧
    (∀ S T : Matrix (Fin p) (Fin p) ℝ, Sᵀ = S → Tᵀ = T → dot (normalIntr x (x * S)) (normalIntr x (x * T)) = frob (x * S) (x * T)) := by
  have e : ∀ S : Matrix (Fin p) (Fin p) ℝ, xᵀ * (x * S) = S := by intro S; rw [← Matrix.mul_assoc, hx, Matrix.one_mul]
  refine ⟨fun S hS => ?_, fun c hc => ⟨?_, _, sym_extr_sym junk (buf c), rfl⟩, fun S T hS hT => ?_⟩
  · unfold normalExtr normalIntr
    rw [e, nor_extr_intr junk hS]
  · unfold normalIntr normalExtr
    rw [e, nor_intr_extr junk c hc]
  · unfold normalIntr
    rw [e, e, nor_eq_sym hS, nor_eq_sym hT, sym_isometry hS hT, frob_mul_left, e]

end stiefel

/-- **C37 (SPD, Euclidean metric).** -/
theorem C37_spd_euc (junk : Nat → ℝ) :
    (∀ η : Matrix (Fin n) (Fin n) ℝ, ηᵀ = η → spdExtrEuc junk (spdIntrEuc η) = η) ∧
    (∀ c : List ℝ, c.length = n * (n + 1) / 2 → spdIntrEuc (spdExtrEuc (n := n) junk c) = c ∧ (spdExtrEuc (n := n) junk c)ᵀ = spdExtrEuc junk c) ∧
    (∀ η ξ : Matrix (Fin n) (Fin n) ℝ, ηᵀ = η → ξᵀ = ξ → dot (spdIntrEuc η) (spdIntrEuc ξ) = frob η ξ) :=
  ⟨fun η h => sym_extr_intr junk h, fun c hc => ⟨sym_intr_extr junk c hc, sym_extr_sym junk (buf c)⟩, fun η ξ h1 h2 => sym_isometry h1 h2⟩

/-- **C37 (SPD, affine-invariant metric).** `x = L Lᵀ`; the conversions are inverse to each other on symmetric matrices, and the inner product of the coordinates is
`tr(x⁻¹ η x⁻¹ ξ)`. -/
theorem C37_spd_af {x L : Matrix (Fin n) (Fin n) ℝ} (hL : L.det ≠ 0) (hx : x = L * Lᵀ) (junk : Nat → ℝ) :
    (∀ η : Matrix (Fin n) (Fin n) ℝ, ηᵀ = η → spdExtrAF junk L (spdIntrAF L η) = η) ∧
    (∀ c : List ℝ, c.length = n * (n + 1) / 2 → spdIntrAF L (spdExtrAF junk L c) = c ∧ (spdExtrAF junk L c)ᵀ = spdExtrAF junk L c) ∧
    (∀ η ξ : Matrix (Fin n) (Fin n) ℝ, ηᵀ = η → ξᵀ = ξ → dot (spdIntrAF L η) (spdIntrAF L ξ) = trace (x⁻¹ * η * x⁻¹ * ξ)) := by
  have hu := isUnit_det_of_ne hL
  have h1 : L⁻¹ * L = 1 := nonsing_inv_mul L hu
  have h2 : L * L⁻¹ = 1 := mul_nonsing_inv L hu
  have h1t : Lᵀ * (L⁻¹)ᵀ = 1 := by rw [← transpose_mul, h1, transpose_one]
  have h2t : (L⁻¹)ᵀ * Lᵀ = 1 := by rw [← transpose_mul, h2, transpose_one]
  have esym : ∀ η : Matrix (Fin n) (Fin n) ℝ, ηᵀ = η → L⁻¹ * (L⁻¹ * η)ᵀ = L⁻¹ * η * (L⁻¹)ᵀ := by
    intro η hη; rw [transpose_mul, hη, Matrix.mul_assoc]
  have ssym : ∀ η : Matrix (Fin n) (Fin n) ℝ, ηᵀ = η → (L⁻¹ * (L⁻¹ * η)ᵀ)ᵀ = L⁻¹ * (L⁻¹ * η)ᵀ := by
    intro η hη
    rw [esym η hη]
    simp only [transpose_mul, transpose_transpose, hη, Matrix.mul_assoc]
  refine ⟨fun η hη => ?_, fun c hc => ⟨?_, ?_⟩, fun η ξ hη hξ => ?_⟩
  · unfold spdExtrAF spdIntrAF
    rw [sym_extr_intr junk (ssym η hη), esym η hη]
    calc L * (L⁻¹ * η * (L⁻¹)ᵀ) * Lᵀ = (L * L⁻¹) * η * ((L⁻¹)ᵀ * Lᵀ) := by simp only [Matrix.mul_assoc]
      _ = η := by rw [h2, h2t, Matrix.one_mul, Matrix.mul_one]
  · unfold spdExtrAF spdIntrAF
    set S := unflat n n (writeAll junk (symExtrWrites n (buf c))) with hS
    have hSs : Sᵀ = S := sym_extr_sym junk (buf c)
    have : L⁻¹ * (L⁻¹ * (L * S * Lᵀ))ᵀ = S := by
      calc L⁻¹ * (L⁻¹ * (L * S * Lᵀ))ᵀ = (L⁻¹ * L) * Sᵀ * (Lᵀ * (L⁻¹)ᵀ) := by
            simp only [transpose_mul, transpose_transpose, Matrix.mul_assoc]
        _ = S := by rw [h1, h1t, Matrix.one_mul, Matrix.mul_one, hSs]
    rw [this, hS, sym_intr_extr junk c hc]
  · unfold spdExtrAF
    simp only [transpose_mul, transpose_transpose, sym_extr_sym, Matrix.mul_assoc]
  · unfold spdIntrAF
    rw [sym_isometry (ssym η hη) (ssym ξ hξ), esym η hη, esym ξ hξ, frob_eq_trace, hx, Matrix.mul_inv_rev, ← transpose_nonsing_inv]
    simp only [transpose_mul, transpose_transpose, hη]
    rw [trace_mul_comm]
    simp only [Matrix.mul_assoc]
    rw [trace_mul_comm]
    simp only [Matrix.mul_assoc]
    rw [trace_mul_comm]
    simp only [Matrix.mul_assoc]

/-! ### The hypotheses are met -/

/-- A point with a negative diagonal entry in the triangle: `x = -e₁ ∈ ℝ^{3×2}`-style point `(-e₁, e₂)`. -/
def exX : Matrix (Fin 3) (Fin 2) ℝ := !![-1, 0; 0, 1; 0, 0]

example : IsQR exX 1 exX ∧ exXᵀ * exX = 1 ∧ IsTangent exX !![0, 2; 2, 0; 5, 7] ∧ IsHorizontal exX !![0, 0; 0, 0; 5, 7] := by
  refine ⟨⟨by simp, ?_, by simp⟩, ?_, ?_, ?_⟩
  · intro i j; fin_cases i <;> fin_cases j <;> simp [exX]
  · ext i j; fin_cases i <;> fin_cases j <;> simp [exX, mul_apply, Fin.sum_univ_three]
  · show (exXᵀ * _)ᵀ = -(exXᵀ * _)
    ext i j; fin_cases i <;> fin_cases j <;> simp [exX, mul_apply, Fin.sum_univ_three]
  · unfold IsHorizontal
    ext i j; fin_cases i <;> fin_cases j <;> simp [exX, mul_apply, Fin.sum_univ_three]

/-- A Cholesky factor and a symmetric matrix. -/
example : (!![2, 0; 1, 3] : Matrix (Fin 2) (Fin 2) ℝ).det ≠ 0 ∧ (!![1, 5; 5, -2] : Matrix (Fin 2) (Fin 2) ℝ)ᵀ = !![1, 5; 5, -2] := by
  refine ⟨by simp [det_fin_two], ?_⟩
  ext i j; fin_cases i <;> fin_cases j <;> simp

end Verif.Intr
