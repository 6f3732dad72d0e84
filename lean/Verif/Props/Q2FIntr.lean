import Verif.Manifold.Q2FIntr
import Verif.Props.Q2F
import Verif.Props.Intrinsic

/-!
# Intrinsic coordinates and transport of the two-factor fixed-rank manifold: properties C37, C46
-/

set_option linter.unusedSectionVars false
set_option linter.unusedVariables false
set_option linter.unusedSimpArgs false

namespace Verif.Q2F

open Matrix Verif.Elem Verif.Intr Verif.CMat Verif.Mat

variable {m n r : Nat}

/-! ## Specification -/

/-- The upper triangle of what `geqp3_` stores. -/
def upper (R : Matrix (Fin m) (Fin r) ℝ) : Matrix (Fin m) (Fin r) ℝ := fun i j => if i.1 ≤ j.1 then R i j else 0

/-- Householder factorisation: `Q` orthogonal, `A` the product of `Q` and the upper triangle of `R`; what `R` holds below the diagonal is arbitrary. -/
structure IsHHR (A : Matrix (Fin m) (Fin r) ℝ) (Q : Matrix (Fin m) (Fin m) ℝ) (R : Matrix (Fin m) (Fin r) ℝ) : Prop where
  orth : Qᵀ * Q = 1
  eq : A = Q * upper R

/-- The factorisations of both factors of a point. -/
structure IsHou (x : Pair ℝ (Fin m) (Fin n) (Fin r)) (h : Hou m n r) : Prop where
  G : IsHHR x.G h.QG h.RG
  H : IsHHR x.H h.QH h.RH

/-! ## Auxiliary lemmas -/

/-- The first columns of the identity. -/
def topI (m r : Nat) : Matrix (Fin m) (Fin r) ℝ := fun i j => if i.1 = j.1 then 1 else 0

theorem mem_square {p i j : Nat} : (i, j) ∈ square p ↔ i < p ∧ j < p := by
  simp only [square, List.mem_flatMap, List.mem_range, List.mem_map, Prod.mk.injEq]
  constructor
  · rintro ⟨a, h1, b, h2, rfl, rfl⟩; exact ⟨h1, h2⟩
  · rintro ⟨h1, h2⟩; exact ⟨i, h1, j, h2, rfl, rfl⟩

theorem nodup_square (p : Nat) : (square p).Nodup := nodup_rows (f := fun _ => List.range p) (fun _ => List.nodup_range) p

theorem length_square (p : Nat) : (square p).length = p * p := by
  simp [square, List.length_flatMap, List.map_const']

theorem sum_sq (p : Nat) (f : Nat × Nat → ℝ) : ((square p).map f).sum = ∑ i ∈ Finset.range p, ∑ j ∈ Finset.range p, f (i, j) := by
  rw [← List.sum_toFinset f (nodup_square p), ← Finset.sum_product]
  refine Finset.sum_congr ?_ fun _ _ => rfl
  ext ⟨i, j⟩
  simp only [List.mem_toFinset, mem_square, Finset.mem_product, Finset.mem_range]

theorem idx_of_square {p k i j : Nat} (h : (square p)[k]? = some (i, j)) : i < p ∧ j < p := mem_square.mp (List.mem_of_getElem? h)

theorem mem_writesG {c : Nat → ℝ} {a : Nat} {v : ℝ} : (a, v) ∈ writesG m r c ↔
    (∃ i j k, (square r)[k]? = some (i, j) ∧ a = j + i * m ∧ v = c k / 2) ∨
    (∃ i j k, (rest m r)[k]? = some (i, j) ∧ a = j + i * m ∧ v = c ((square r).length + k)) := by
  simp only [writesG, List.mem_append, List.mem_map, Prod.mk.injEq, Prod.exists, List.mk_mem_zipIdx_iff_getElem?]
  constructor
  · rintro (⟨i, j, k, h, rfl, rfl⟩ | ⟨i, j, k, h, rfl, rfl⟩)
    · exact Or.inl ⟨i, j, k, h, rfl, rfl⟩
    · exact Or.inr ⟨i, j, k, h, rfl, rfl⟩
  · rintro (⟨i, j, k, h, rfl, rfl⟩ | ⟨i, j, k, h, rfl, rfl⟩)
    · exact Or.inl ⟨i, j, k, h, rfl, rfl⟩
    · exact Or.inr ⟨i, j, k, h, rfl, rfl⟩

theorem mem_writesH {c : Nat → ℝ} {a : Nat} {v : ℝ} : (a, v) ∈ writesH m n r c ↔
    (∃ i j k, (square r)[k]? = some (i, j) ∧ a = i + j * n ∧ v = c k / 2) ∨
    (∃ i j k, (rest n r)[k]? = some (i, j) ∧ a = j + i * n ∧ v = c ((square r).length + (rest m r).length + k)) := by
  simp only [writesH, List.mem_append, List.mem_map, Prod.mk.injEq, Prod.exists, List.mk_mem_zipIdx_iff_getElem?]
  constructor
  · rintro (⟨i, j, k, h, rfl, rfl⟩ | ⟨i, j, k, h, rfl, rfl⟩)
    · exact Or.inl ⟨i, j, k, h, rfl, rfl⟩
    · exact Or.inr ⟨i, j, k, h, rfl, rfl⟩
  · rintro (⟨i, j, k, h, rfl, rfl⟩ | ⟨i, j, k, h, rfl, rfl⟩)
    · exact Or.inl ⟨i, j, k, h, rfl, rfl⟩
    · exact Or.inr ⟨i, j, k, h, rfl, rfl⟩

theorem writesG_top (hm : r ≤ m) (jk c : Nat → ℝ) {i j k : Nat} (hk : (square r)[k]? = some (i, j)) : writeAll jk (writesG m r c) (j + i * m) = c k / 2 := by
  have hij := idx_of_square hk
  refine writeAll_of_mem _ _ _ _ (mem_writesG.mpr (Or.inl ⟨i, j, k, hk, rfl, rfl⟩)) fun v hv => ?_
  rcases mem_writesG.mp hv with ⟨a, b, k', h, e, rfl⟩ | ⟨a, b, k', h, e, rfl⟩
  · have hab := idx_of_square h
    obtain ⟨rfl, rfl⟩ := colMajor_inj (by omega) (by omega) e
    rw [index_unique (nodup_square r) hk h]
  · have hab := idx_of_rest h
    obtain ⟨rfl, rfl⟩ := colMajor_inj (by omega) (by omega) e
    omega

theorem writesG_rest (hm : r ≤ m) (jk c : Nat → ℝ) {i j k : Nat} (hk : (rest m r)[k]? = some (i, j)) :
    writeAll jk (writesG m r c) (j + i * m) = c ((square r).length + k) := by
  have hij := idx_of_rest hk
  refine writeAll_of_mem _ _ _ _ (mem_writesG.mpr (Or.inr ⟨i, j, k, hk, rfl, rfl⟩)) fun v hv => ?_
  rcases mem_writesG.mp hv with ⟨a, b, k', h, e, rfl⟩ | ⟨a, b, k', h, e, rfl⟩
  · have hab := idx_of_square h
    obtain ⟨rfl, rfl⟩ := colMajor_inj (by omega) (by omega) e
    omega
  · have hab := idx_of_rest h
    obtain ⟨rfl, rfl⟩ := colMajor_inj (by omega) (by omega) e
    rw [index_unique (nodup_rest m r) hk h]

theorem writesH_top (hn : r ≤ n) (jk c : Nat → ℝ) {i j k : Nat} (hk : (square r)[k]? = some (i, j)) : writeAll jk (writesH m n r c) (i + j * n) = c k / 2 := by
  have hij := idx_of_square hk
  refine writeAll_of_mem _ _ _ _ (mem_writesH.mpr (Or.inl ⟨i, j, k, hk, rfl, rfl⟩)) fun v hv => ?_
  rcases mem_writesH.mp hv with ⟨a, b, k', h, e, rfl⟩ | ⟨a, b, k', h, e, rfl⟩
  · have hab := idx_of_square h
    obtain ⟨rfl, rfl⟩ := colMajor_inj (by omega) (by omega) e
    rw [index_unique (nodup_square r) hk h]
  · have hab := idx_of_rest h
    obtain ⟨rfl, rfl⟩ := colMajor_inj (by omega) (by omega) e
    omega

theorem writesH_rest (hn : r ≤ n) (jk c : Nat → ℝ) {i j k : Nat} (hk : (rest n r)[k]? = some (i, j)) :
    writeAll jk (writesH m n r c) (j + i * n) = c ((square r).length + (rest m r).length + k) := by
  have hij := idx_of_rest hk
  refine writeAll_of_mem _ _ _ _ (mem_writesH.mpr (Or.inr ⟨i, j, k, hk, rfl, rfl⟩)) fun v hv => ?_
  rcases mem_writesH.mp hv with ⟨a, b, k', h, e, rfl⟩ | ⟨a, b, k', h, e, rfl⟩
  · have hab := idx_of_square h
    obtain ⟨rfl, rfl⟩ := colMajor_inj (by omega) (by omega) e
    omega
  · have hab := idx_of_rest h
    obtain ⟨rfl, rfl⟩ := colMajor_inj (by omega) (by omega) e
    rw [index_unique (nodup_rest n r) hk h]

/-- The loops of `ObtainExtr` followed by those of `ObtainIntr`. -/
theorem loops_intr_extr (hm : r ≤ m) (hn : r ≤ n) (jG jH : Nat → ℝ) (c : List ℝ) (hc : c.length = r * r + (r * (m - r) + r * (n - r))) :
    intrLoops m n r (flat (unflat m r (writeAll jG (writesG m r (buf c))))) (flat (unflat n r (writeAll jH (writesH m n r (buf c))))) = c := by
  have hc' : c.length = (square r).length + ((rest m r).length + (rest n r).length) := by rw [hc, length_square, length_rest, length_rest]
  unfold intrLoops
  have hsq : ∀ k q, (square r)[k]? = some q → flat (unflat m r (writeAll jG (writesG m r (buf c)))) (q.2 + q.1 * m) +
      flat (unflat n r (writeAll jH (writesH m n r (buf c)))) (q.1 + q.2 * n) = buf c k := by
    rintro k ⟨i, j⟩ hk
    have := idx_of_square hk
    rw [flat_unflat _ (by simp; omega) (by simp; omega), flat_unflat _ (by simp; omega) (by simp; omega), writesG_top hm _ _ hk, writesH_top hn _ _ hk]
    ring
  have hG : ∀ k q, (rest m r)[k]? = some q → flat (unflat m r (writeAll jG (writesG m r (buf c)))) (q.2 + q.1 * m) = buf c ((square r).length + k) := by
    rintro k ⟨i, j⟩ hk
    have := idx_of_rest hk
    rw [flat_unflat _ (by simp; omega) (by simp; omega), writesG_rest hm _ _ hk]
  have hH : ∀ k q, (rest n r)[k]? = some q → flat (unflat n r (writeAll jH (writesH m n r (buf c)))) (q.2 + q.1 * n) =
      buf c ((square r).length + (rest m r).length + k) := by
    rintro k ⟨i, j⟩ hk
    have := idx_of_rest hk
    rw [flat_unflat _ (by simp; omega) (by simp; omega), writesH_rest hn _ _ hk]
  apply List.ext_getElem?
  intro k
  have hb : ∀ k, k < c.length → c[k]? = some (buf c k) := by
    intro k hk
    simp [buf, List.getD_eq_getElem?_getD, List.getElem?_eq_getElem hk]
  by_cases h1 : k < (square r).length
  · rw [List.getElem?_append_left (by simpa using h1), List.getElem?_map, List.getElem?_eq_getElem h1, hb k (by omega)]
    simp only [Option.map_some, Option.some.injEq]
    exact hsq k _ (List.getElem?_eq_getElem h1)
  · rw [List.getElem?_append_right (by simpa using h1)]
    by_cases h2 : k < (square r).length + (rest m r).length
    · have h3 : k - (square r).length < (rest m r).length := by omega
      rw [List.getElem?_append_left (by simpa using h3), List.length_map, List.getElem?_map, List.getElem?_eq_getElem h3, hb k (by omega)]
      simp only [Option.map_some, Option.some.injEq]
      have := hG _ _ (List.getElem?_eq_getElem h3)
      rwa [Nat.add_sub_cancel' (by omega)] at this
    · rw [List.getElem?_append_right (by simp; omega)]
      simp only [List.length_map]
      by_cases h4 : k < c.length
      · have h5 : k - (square r).length - (rest m r).length < (rest n r).length := by omega
        rw [List.getElem?_map, List.getElem?_eq_getElem h5, hb k h4]
        simp only [Option.map_some, Option.some.injEq]
        have := hH _ _ (List.getElem?_eq_getElem h5)
        rwa [show (square r).length + (rest m r).length + (k - (square r).length - (rest m r).length) = k by omega] at this
      · rw [List.getElem?_eq_none (by simp; omega), List.getElem?_eq_none (by omega)]

/-- The loops of `ObtainIntr` followed by those of `ObtainExtr`. -/
theorem loops_extr_intr (hm : r ≤ m) (hn : r ≤ n) (jG jH : Nat → ℝ) (A : Matrix (Fin m) (Fin r) ℝ) (B : Matrix (Fin n) (Fin r) ℝ)
    (hAB : ∀ i j (hi : i < r) (hj : j < r), A ⟨j, by omega⟩ ⟨i, hi⟩ = B ⟨i, by omega⟩ ⟨j, hj⟩) :
    unflat m r (writeAll jG (writesG m r (buf (intrLoops m n r (flat A) (flat B))))) = A ∧
      unflat n r (writeAll jH (writesH m n r (buf (intrLoops m n r (flat A) (flat B))))) = B := by
  have hsq : ∀ i j k, (square r)[k]? = some (i, j) → buf (intrLoops m n r (flat A) (flat B)) k = flat A (j + i * m) + flat B (i + j * n) :=
    fun i j k hk => buf_map_left hk
  have hG : ∀ i j k, (rest m r)[k]? = some (i, j) → buf (intrLoops m n r (flat A) (flat B)) ((square r).length + k) = flat A (j + i * m) := by
    intro i j k hk
    have hlt := (List.getElem?_eq_some_iff.mp hk).1
    unfold intrLoops
    have := buf_append_right (l := (square r).map fun q => flat A (q.2 + q.1 * m) + flat B (q.1 + q.2 * n))
      (m := (rest m r).map (fun q => flat A (q.2 + q.1 * m)) ++ (rest n r).map fun q => flat B (q.2 + q.1 * n)) (k := k) (by simp; omega)
    rw [List.length_map] at this
    rw [this, List.getElem_append_left (by simpa using hlt), List.getElem_map, (List.getElem?_eq_some_iff.mp hk).2]
  have hH : ∀ i j k, (rest n r)[k]? = some (i, j) → buf (intrLoops m n r (flat A) (flat B)) ((square r).length + (rest m r).length + k) = flat B (j + i * n) := by
    intro i j k hk
    unfold intrLoops
    rw [← List.append_assoc]
    have := buf_map_right (f := fun q => flat B (q.2 + q.1 * n))
      (m := (square r).map (fun q => flat A (q.2 + q.1 * m) + flat B (q.1 + q.2 * n)) ++ (rest m r).map (fun q => flat A (q.2 + q.1 * m))) hk
    simpa only [List.length_append, List.length_map] using this
  constructor
  · ext ⟨j, hj⟩ ⟨i, hi⟩
    show writeAll jG _ (j + i * m) = _
    by_cases hjr : j < r
    · obtain ⟨k, hk⟩ := index_exists (mem_square.mpr ⟨hi, hjr⟩)
      rw [writesG_top hm _ _ hk, hsq i j k hk, flat_apply A hj hi, flat_apply B (by omega) hjr, hAB i j hi hjr]
      ring
    · obtain ⟨k, hk⟩ := index_exists (mem_rest.mpr ⟨hi, Nat.le_of_not_lt hjr, hj⟩)
      rw [writesG_rest hm _ _ hk, hG i j k hk, flat_apply A hj hi]
  · ext ⟨i, hi⟩ ⟨j, hj⟩
    show writeAll jH _ (i + j * n) = _
    by_cases hir : i < r
    · obtain ⟨k, hk⟩ := index_exists (mem_square.mpr ⟨hir, hj⟩)
      rw [writesH_top hn _ _ hk, hsq i j k hk, flat_apply A (by omega) hir, flat_apply B hi hj, hAB i j hir hj]
      ring
    · obtain ⟨k, hk⟩ := index_exists (mem_rest.mpr ⟨hj, Nat.le_of_not_lt hir, hi⟩)
      rw [writesH_rest hn _ _ hk, hH j i k hk, flat_apply B hi hj]

/-- The matrix of a pair of coordinate blocks. -/
def blk (A : Matrix (Fin m) (Fin r) ℝ) (B : Matrix (Fin n) (Fin r) ℝ) : Matrix (Fin m) (Fin n) ℝ := A * (topI n r)ᵀ + topI m r * Bᵀ

theorem blk_apply (A : Matrix (Fin m) (Fin r) ℝ) (B : Matrix (Fin n) (Fin r) ℝ) (i : Fin m) (j : Fin n) :
    blk A B i j = (if h : j.1 < r then A i ⟨j.1, h⟩ else 0) + (if h : i.1 < r then B j ⟨i.1, h⟩ else 0) := by
  unfold blk
  rw [Matrix.add_apply, Matrix.mul_apply, Matrix.mul_apply]
  congr 1
  · split
    next h =>
      rw [Finset.sum_eq_single (⟨j.1, h⟩ : Fin r)]
      · simp [topI]
      · intro b _ hb
        have : j.1 ≠ b.1 := fun e => hb (Fin.ext e.symm)
        simp [topI, this]
      · simp
    next h =>
      refine Finset.sum_eq_zero fun b _ => ?_
      have : j.1 ≠ b.1 := by omega
      simp [topI, this]
  · split
    next h =>
      rw [Finset.sum_eq_single (⟨i.1, h⟩ : Fin r)]
      · simp [topI]
      · intro b _ hb
        have : i.1 ≠ b.1 := fun e => hb (Fin.ext e.symm)
        simp [topI, this]
      · simp
    next h =>
      refine Finset.sum_eq_zero fun b _ => ?_
      have : i.1 ≠ b.1 := by omega
      simp [topI, this]

/-- The coordinates are entries of `blk`. -/
theorem loops_blk (hm : r ≤ m) (hn : r ≤ n) (A : Matrix (Fin m) (Fin r) ℝ) (B : Matrix (Fin n) (Fin r) ℝ) :
    intrLoops m n r (flat A) (flat B) = (square r).map (fun q => flat (blk A B) (q.2 + q.1 * m)) ++
      ((rest m r).map (fun q => flat (blk A B) (q.2 + q.1 * m)) ++ (rest n r).map (fun q => flat (blk A B) (q.1 + q.2 * m))) := by
  unfold intrLoops
  congr 1
  · refine List.map_congr_left fun q hq => ?_
    have := mem_square.mp hq
    rw [flat_apply (i := q.2) (j := q.1) (blk A B) (by omega) (by omega), blk_apply, flat_apply (i := q.2) (j := q.1) A (by omega) (by omega),
      flat_apply (i := q.1) (j := q.2) B (by omega) (by omega), dif_pos this.1, dif_pos this.2]
  congr 1
  · refine List.map_congr_left fun q hq => ?_
    have := mem_rest.mp hq
    rw [flat_apply (i := q.2) (j := q.1) (blk A B) (by omega) (by omega), blk_apply, flat_apply (i := q.2) (j := q.1) A (by omega) (by omega),
      dif_pos this.1, dif_neg (by simp; omega), add_zero]
  · refine List.map_congr_left fun q hq => ?_
    have := mem_rest.mp hq
    rw [flat_apply (i := q.1) (j := q.2) (blk A B) (by omega) (by omega), blk_apply, flat_apply (i := q.2) (j := q.1) B (by omega) (by omega),
      dif_pos this.1, dif_neg (by simp; omega), zero_add]

theorem loops_dot (hm : r ≤ m) (hn : r ≤ n) (A A' : Matrix (Fin m) (Fin r) ℝ) (B B' : Matrix (Fin n) (Fin r) ℝ) :
    dot (intrLoops m n r (flat A) (flat B)) (intrLoops m n r (flat A') (flat B')) = frob (blk A B) (blk A' B') := by
  rw [loops_blk hm hn, loops_blk hm hn, dot_append (by simp), dot_append (by simp), dot_map, dot_map, dot_map, sum_sq, sum_rest, sum_rest, frob_range]
  have hz : ∀ i ∈ Finset.Ico r m, ∀ j ∈ Finset.Ico r n, flat (blk A B) (i + j * m) * flat (blk A' B') (i + j * m) = 0 := by
    intro i hi j hj
    rw [Finset.mem_Ico] at hi hj
    rw [flat_apply (blk A B) hi.2 hj.2, blk_apply, dif_neg (by simp; omega), dif_neg (by simp; omega)]
    simp
  have split1 : ∀ (k N : Nat) (_ : k ≤ N) (f : Nat → ℝ), ∑ i ∈ Finset.range N, f i = ∑ i ∈ Finset.range k, f i + ∑ i ∈ Finset.Ico k N, f i :=
    fun k N h f => (Finset.sum_range_add_sum_Ico f h).symm
  rw [split1 r n hn]
  have e1 : ∀ j, ∑ i ∈ Finset.range m, flat (blk A B) (i + j * m) * flat (blk A' B') (i + j * m) =
      ∑ i ∈ Finset.range r, flat (blk A B) (i + j * m) * flat (blk A' B') (i + j * m) +
      ∑ i ∈ Finset.Ico r m, flat (blk A B) (i + j * m) * flat (blk A' B') (i + j * m) := fun j => split1 r m hm _
  simp only [e1, Finset.sum_add_distrib]
  have e2 : ∑ j ∈ Finset.Ico r n, ∑ i ∈ Finset.Ico r m, flat (blk A B) (i + j * m) * flat (blk A' B') (i + j * m) = 0 :=
    Finset.sum_eq_zero fun j hj => Finset.sum_eq_zero fun i hi => hz i hi j hj
  rw [e2, add_zero, Finset.sum_comm (s := Finset.Ico r n)]
  ring

/-! ### Matrices -/

theorem scale_eq (s : Fin m → ℝ) (A : Matrix (Fin m) (Fin r) ℝ) : scaleRows s A = diagonal s * A := by
  ext i j
  rw [Matrix.diagonal_mul]; rfl

/-- The orthogonal matrix with the signs absorbed. -/
noncomputable def orthO (Q : Matrix (Fin m) (Fin m) ℝ) (R : Matrix (Fin m) (Fin r) ℝ) : Matrix (Fin m) (Fin m) ℝ := Q * diagonal (rowSigns R)

theorem diag_sq (R : Matrix (Fin m) (Fin r) ℝ) : diagonal (rowSigns R) * diagonal (rowSigns R) = 1 := by
  rw [diagonal_mul_diagonal, ← diagonal_one]
  congr 1
  funext i
  exact rowSigns_mul_self R i

theorem orthO_orth {A : Matrix (Fin m) (Fin r) ℝ} {Q : Matrix (Fin m) (Fin m) ℝ} {R : Matrix (Fin m) (Fin r) ℝ} (h : IsHHR A Q R) :
    (orthO Q R)ᵀ * orthO Q R = 1 := by
  rw [orthO, transpose_mul, diagonal_transpose, Matrix.mul_assoc, ← Matrix.mul_assoc Qᵀ, h.orth, Matrix.one_mul, diag_sq]

theorem orthO_orth' {A : Matrix (Fin m) (Fin r) ℝ} {Q : Matrix (Fin m) (Fin m) ℝ} {R : Matrix (Fin m) (Fin r) ℝ} (h : IsHHR A Q R) :
    orthO Q R * (orthO Q R)ᵀ = 1 := mul_eq_one_comm.mp (orthO_orth h)

theorem upper_eq (hm : r ≤ m) (R : Matrix (Fin m) (Fin r) ℝ) : upper R = diagonal (rowSigns R) * (topI m r * (lowL R)ᵀ) := by
  ext i j
  rw [Matrix.diagonal_mul, Matrix.mul_apply, upper]
  by_cases hi : i.1 < r
  · rw [Finset.sum_eq_single (⟨i.1, hi⟩ : Fin r)]
    · have e1 : flat R (i.1 + m * j.1) = R i j := by rw [Nat.mul_comm]; exact flat_apply R i.2 j.2
      have e2 : flat R (i.1 + m * i.1) = R i ⟨i.1, hi⟩ := by rw [Nat.mul_comm]; exact flat_apply R i.2 hi
      simp only [topI, if_true, one_mul, transpose_apply, lowL, Fin.lt_def, e1, e2, rowSigns, dif_pos hi]
      by_cases hj : i.1 ≤ j.1
      · have hj' : ¬ j.1 < i.1 := by omega
        by_cases hs : R i ⟨i.1, hi⟩ < 0
        · have hs' : ¬ R i ⟨i.1, hi⟩ ≥ 0 := by simpa using hs
          simp only [if_pos hj, if_neg hj', if_pos hs, if_neg hs']; ring
        · have hs' : R i ⟨i.1, hi⟩ ≥ 0 := by simpa using hs
          simp only [if_pos hj, if_neg hj', if_neg hs, if_pos hs']; ring
      · have hj' : j.1 < i.1 := by omega
        simp only [if_neg hj, if_pos hj', mul_zero]
    · intro b _ hb
      have : i.1 ≠ b.1 := fun e => hb (Fin.ext e.symm)
      simp [topI, this]
    · simp
  · rw [if_neg (by omega), Finset.sum_eq_zero, mul_zero]
    intro b _
    have : i.1 ≠ b.1 := by omega
    simp [topI, this]

theorem hhr_eq (hm : r ≤ m) {A : Matrix (Fin m) (Fin r) ℝ} {Q : Matrix (Fin m) (Fin m) ℝ} {R : Matrix (Fin m) (Fin r) ℝ} (h : IsHHR A Q R) :
    A = orthO Q R * (topI m r * (lowL R)ᵀ) := by
  rw [h.eq, upper_eq hm, orthO, Matrix.mul_assoc]

theorem topI_orth (hm : r ≤ m) : (topI m r)ᵀ * topI m r = 1 := by
  ext i j
  rw [Matrix.mul_apply, Finset.sum_eq_single (⟨i.1, by omega⟩ : Fin m)]
  · by_cases h : i = j
    · subst h; simp [topI]
    · have : i.1 ≠ j.1 := fun e => h (Fin.ext e)
      simp [topI, this, h]
  · intro b _ hb
    have : b.1 ≠ i.1 := fun e => hb (Fin.ext e)
    simp [topI, this]
  · simp

theorem gram_low (hm : r ≤ m) {A : Matrix (Fin m) (Fin r) ℝ} {Q : Matrix (Fin m) (Fin m) ℝ} {R : Matrix (Fin m) (Fin r) ℝ} (h : IsHHR A Q R) :
    lowL R * (lowL R)ᵀ = Aᵀ * A := by
  have e := hhr_eq hm h
  have : Aᵀ * A = lowL R * ((topI m r)ᵀ * (((orthO Q R)ᵀ * orthO Q R) * (topI m r * (lowL R)ᵀ))) := by
    conv_lhs => rw [e]
    simp only [transpose_mul, transpose_transpose, Matrix.mul_assoc]
  rw [this, orthO_orth h, Matrix.one_mul, ← Matrix.mul_assoc (topI m r)ᵀ, topI_orth hm, Matrix.one_mul]

/-- The block of a factor in the coordinates. -/
noncomputable def blkOf (Q : Matrix (Fin m) (Fin m) ℝ) (R : Matrix (Fin m) (Fin r) ℝ) (L : Matrix (Fin r) (Fin r) ℝ) (η : Matrix (Fin m) (Fin r) ℝ) :
    Matrix (Fin m) (Fin r) ℝ := scaleRows (rowSigns R) (Qᵀ * η) * L

theorem blkOf_eq (Q : Matrix (Fin m) (Fin m) ℝ) (R : Matrix (Fin m) (Fin r) ℝ) (L : Matrix (Fin r) (Fin r) ℝ) (η : Matrix (Fin m) (Fin r) ℝ) :
    blkOf Q R L η = (orthO Q R)ᵀ * (η * L) := by
  rw [blkOf, scale_eq, orthO, transpose_mul, diagonal_transpose]
  simp only [Matrix.mul_assoc]

variable {x : Pair ℝ (Fin m) (Fin n) (Fin r)} {h : Hou m n r}

/-- The represented change in the coordinates. -/
theorem rep_blk (hm : r ≤ m) (hn : r ≤ n) (hh : IsHou x h) (η : Pair ℝ (Fin m) (Fin n) (Fin r)) :
    rep x η = orthO h.QG h.RG * blk (blkOf h.QG h.RG (lowL h.RH) η.G) (blkOf h.QH h.RH (lowL h.RG) η.H) * (orthO h.QH h.RH)ᵀ := by
  have eG := hhr_eq hm hh.G
  have eH := hhr_eq hn hh.H
  have oG := orthO_orth' hh.G
  have oH := orthO_orth' hh.H
  unfold rep blk
  rw [blkOf_eq, blkOf_eq]
  simp only [conjTranspose_eq_transpose_of_trivial]
  conv_lhs => rw [eG, eH]
  simp only [transpose_mul, transpose_transpose, Matrix.mul_add, Matrix.add_mul]
  congr 1
  · simp only [← Matrix.mul_assoc]
    rw [oG, Matrix.one_mul]
  · simp only [Matrix.mul_assoc]
    rw [oH, Matrix.mul_one]

theorem intr_eq (η : Pair ℝ (Fin m) (Fin n) (Fin r)) : intr h.QG h.RG h.QH h.RH η =
    intrLoops m n r (flat (blkOf h.QG h.RG (lowL h.RH) η.G)) (flat (blkOf h.QH h.RH (lowL h.RG) η.H)) := rfl

theorem low_unit (hm : r ≤ m) {A : Matrix (Fin m) (Fin r) ℝ} {Q : Matrix (Fin m) (Fin m) ℝ} {R : Matrix (Fin m) (Fin r) ℝ} (h : IsHHR A Q R)
    (hA : IsUnit (Aᵀ * A).det) : IsUnit (lowL R).det := by
  rw [← gram_low hm h, Matrix.det_mul] at hA
  exact isUnit_of_mul_isUnit_left hA

theorem pt_low (hm : r ≤ m) (hn : r ≤ n) (hx : IsPt x) (hh : IsHou x h) : IsUnit (lowL h.RG).det ∧ IsUnit (lowL h.RH).det := by
  refine ⟨low_unit hm hh.G ?_, low_unit hn hh.H ?_⟩
  · have := hx.G; rwa [conjTranspose_eq_transpose_of_trivial] at this
  · have := hx.H; rwa [conjTranspose_eq_transpose_of_trivial] at this

/-- The factor obtained from a coordinate block. -/
theorem blkOf_back {A : Matrix (Fin m) (Fin r) ℝ} {Q : Matrix (Fin m) (Fin m) ℝ} {R : Matrix (Fin m) (Fin r) ℝ} (h : IsHHR A Q R) {L : Matrix (Fin r) (Fin r) ℝ}
    (hL : IsUnit L.det) (X : Matrix (Fin m) (Fin r) ℝ) : blkOf Q R L ((Lᵀ⁻¹ * (Q * scaleRows (rowSigns R) X)ᵀ)ᵀ) = X := by
  rw [blkOf_eq, transpose_mul, transpose_transpose, transpose_nonsing_inv, transpose_transpose, Matrix.mul_assoc, nonsing_inv_mul _ hL, Matrix.mul_one, scale_eq,
    ← Matrix.mul_assoc Q, ← orthO, ← Matrix.mul_assoc, orthO_orth h, Matrix.one_mul]

theorem back_blkOf {A : Matrix (Fin m) (Fin r) ℝ} {Q : Matrix (Fin m) (Fin m) ℝ} {R : Matrix (Fin m) (Fin r) ℝ} (h : IsHHR A Q R) {L : Matrix (Fin r) (Fin r) ℝ}
    (hL : IsUnit L.det) (η : Matrix (Fin m) (Fin r) ℝ) : (Lᵀ⁻¹ * (Q * scaleRows (rowSigns R) (blkOf Q R L η))ᵀ)ᵀ = η := by
  rw [blkOf_eq, transpose_mul, transpose_transpose, transpose_nonsing_inv, transpose_transpose, scale_eq,
    ← Matrix.mul_assoc Q, ← orthO, ← Matrix.mul_assoc, orthO_orth' h, Matrix.one_mul, Matrix.mul_assoc, mul_nonsing_inv _ hL, Matrix.mul_one]

theorem top_mul (A : Matrix (Fin m) (Fin r) ℝ) (hm : r ≤ m) (i j : Fin r) : ((topI m r)ᵀ * A) i j = A ⟨i.1, by omega⟩ j := by
  rw [Matrix.mul_apply, Finset.sum_eq_single (⟨i.1, by omega⟩ : Fin m)]
  · simp [topI]
  · intro b _ hb
    have : b.1 ≠ i.1 := fun e => hb (Fin.ext e)
    simp [topI, this]
  · simp

/-- Horizontal pairs in the coordinates. -/
theorem hor_blk (hm : r ≤ m) (hn : r ≤ n) (hx : IsPt x) (hh : IsHou x h) (η : Pair ℝ (Fin m) (Fin n) (Fin r)) : IsHor x η ↔
    ∀ i j (hi : i < r) (hj : j < r), blkOf h.QG h.RG (lowL h.RH) η.G ⟨j, by omega⟩ ⟨i, hi⟩ = blkOf h.QH h.RH (lowL h.RG) η.H ⟨i, by omega⟩ ⟨j, hj⟩ := by
  obtain ⟨uG, uH⟩ := pt_low hm hn hx hh
  have eG := hhr_eq hm hh.G
  have eH := hhr_eq hn hh.H
  have e1 : x.Gᴴ * η.G * (x.Hᴴ * x.H) = lowL h.RG * ((topI m r)ᵀ * blkOf h.QG h.RG (lowL h.RH) η.G) * (lowL h.RH)ᵀ := by
    rw [conjTranspose_eq_transpose_of_trivial, conjTranspose_eq_transpose_of_trivial, ← gram_low hn hh.H, blkOf_eq]
    conv_lhs => rw [eG]
    simp only [transpose_mul, transpose_transpose, Matrix.mul_assoc]
  have e2 : x.Gᴴ * x.G * (η.Hᴴ * x.H) = lowL h.RG * ((topI n r)ᵀ * blkOf h.QH h.RH (lowL h.RG) η.H)ᵀ * (lowL h.RH)ᵀ := by
    rw [conjTranspose_eq_transpose_of_trivial, conjTranspose_eq_transpose_of_trivial, ← gram_low hm hh.G, blkOf_eq]
    conv_lhs => rw [eH]
    simp only [transpose_mul, transpose_transpose, Matrix.mul_assoc]
  have key : IsHor x η ↔ (topI m r)ᵀ * blkOf h.QG h.RG (lowL h.RH) η.G = ((topI n r)ᵀ * blkOf h.QH h.RH (lowL h.RG) η.H)ᵀ := by
    unfold IsHor
    rw [e1, e2]
    constructor
    · intro e
      have uH' : IsUnit ((lowL h.RH)ᵀ).det := by rwa [det_transpose]
      have := congrArg (fun M => (lowL h.RG)⁻¹ * (M * ((lowL h.RH)ᵀ)⁻¹)) e
      simpa only [Matrix.mul_assoc, mul_nonsing_inv _ uH', Matrix.mul_one, nonsing_inv_mul_cancel_left _ _ uG] using this
    · intro e; rw [e]
  rw [key]
  constructor
  · intro e i j hi hj
    have := congrFun (congrFun e ⟨j, hj⟩) ⟨i, hi⟩
    rw [top_mul _ hm, transpose_apply, top_mul _ hn] at this
    exact this
  · intro e
    ext ⟨j, hj⟩ ⟨i, hi⟩
    rw [top_mul _ hm, transpose_apply, top_mul _ hn]
    exact e i j hi hj

/-! ## C37, C46 -/

/-- **C37 (two-factor fixed rank, dimension).** `(m + n - r) r` coordinates. -/
theorem C37_two_factor_dim (hm : r ≤ m) (hn : r ≤ n) (h : Hou m n r) (η : Pair ℝ (Fin m) (Fin n) (Fin r)) :
    (intr h.QG h.RG h.QH h.RH η).length = (m + n - r) * r := by
  rw [intr_eq, intrLoops]
  simp only [List.length_append, List.length_map, length_square, length_rest]
  obtain ⟨a, rfl⟩ := Nat.exists_eq_add_of_le hm
  obtain ⟨b, rfl⟩ := Nat.exists_eq_add_of_le hn
  rw [Nat.add_sub_cancel_left, Nat.add_sub_cancel_left, show r + a + (r + b) - r = r + a + b by omega]
  ring

/-- **C37 (two-factor fixed rank, the triangular factors).** The triangular matrices built from the Householder factorisations are factors of the Gram matrices. -/
theorem C37_two_factor_chol (hm : r ≤ m) (hn : r ≤ n) (hh : IsHou x h) : Chol x (lowL h.RG) (lowL h.RH) ∧
    (∀ i j, i < j → lowL h.RG i j = 0) ∧ (∀ i j, i < j → lowL h.RH i j = 0) ∧ (∀ i, 0 ≤ lowL h.RG i i) ∧ (∀ i, 0 ≤ lowL h.RH i i) := by
  have pos : ∀ {N : Nat} (R : Matrix (Fin N) (Fin r) ℝ) (i : Fin r), 0 ≤ lowL R i i := by
    intro N R i
    unfold lowL
    rw [if_neg (lt_irrefl i)]
    by_cases hs : flat R (i + N * i) ≥ 0
    · rw [if_pos hs, mul_one]; exact hs
    · rw [if_neg hs]; linarith
  refine ⟨⟨?_, ?_⟩, fun i j hij => if_pos hij, fun i j hij => if_pos hij, pos _, pos _⟩
  · rw [conjTranspose_eq_transpose_of_trivial, conjTranspose_eq_transpose_of_trivial, gram_low hm hh.G]
  · rw [conjTranspose_eq_transpose_of_trivial, conjTranspose_eq_transpose_of_trivial, gram_low hn hh.H]

/-- **C37 (two-factor fixed rank, isometry).** The inner product of the coordinates is the metric, for all pairs. -/
theorem C37_two_factor_isometry (hm : r ≤ m) (hn : r ≤ n) (hh : IsHou x h) (η ξ : Pair ℝ (Fin m) (Fin n) (Fin r)) :
    dot (intr h.QG h.RG h.QH h.RH η) (intr h.QG h.RG h.QH h.RH ξ) = metric x η ξ := by
  rw [intr_eq, intr_eq, loops_dot hm hn, C76_metric, ip_real, rep_blk hm hn hh, rep_blk hm hn hh, frob_mul_right', transpose_transpose, Matrix.mul_assoc _ (orthO h.QH h.RH)ᵀ,
    orthO_orth hh.H, Matrix.mul_one, frob_mul_left, ← Matrix.mul_assoc, orthO_orth hh.G, Matrix.one_mul]

/-- **C37 (two-factor fixed rank, intrinsic → extrinsic → intrinsic).** The result is horizontal. -/
theorem C37_two_factor_intr_extr (hm : r ≤ m) (hn : r ≤ n) (hx : IsPt x) (hh : IsHou x h) (jG jH : Nat → ℝ) (c : List ℝ) (hc : c.length = (m + n - r) * r) :
    intr h.QG h.RG h.QH h.RH (extr jG jH h.QG h.RG h.QH h.RH c) = c ∧ IsHor x (extr jG jH h.QG h.RG h.QH h.RH c) := by
  obtain ⟨uG, uH⟩ := pt_low hm hn hx hh
  have hc' : c.length = r * r + (r * (m - r) + r * (n - r)) := by
    rw [hc]
    obtain ⟨a, rfl⟩ := Nat.exists_eq_add_of_le hm
    obtain ⟨b, rfl⟩ := Nat.exists_eq_add_of_le hn
    rw [Nat.add_sub_cancel_left, Nat.add_sub_cancel_left, show r + a + (r + b) - r = r + a + b by omega]
    ring
  constructor
  · rw [intr_eq, extr, blkOf_back hh.G uH, blkOf_back hh.H uG, loops_intr_extr hm hn jG jH c hc']
  · rw [hor_blk hm hn hx hh]
    intro i j hi hj
    rw [extr, blkOf_back hh.G uH, blkOf_back hh.H uG]
    obtain ⟨k, hk⟩ := index_exists (mem_square.mpr ⟨hi, hj⟩)
    show writeAll jG _ (j + i * m) = writeAll jH _ (i + j * n)
    rw [writesG_top hm _ _ hk, writesH_top hn _ _ hk]

/-- **C37 (two-factor fixed rank, extrinsic → intrinsic → extrinsic).** Horizontal pairs come back; any pair comes back as its horizontal projection. -/
theorem C37_two_factor_extr_intr (hm : r ≤ m) (hn : r ≤ n) (hx : IsPt x) (hh : IsHou x h) (jG jH : Nat → ℝ) (η : Pair ℝ (Fin m) (Fin n) (Fin r)) :
    (IsHor x η → extr jG jH h.QG h.RG h.QH h.RH (intr h.QG h.RG h.QH h.RH η) = η) ∧
    ∀ LG LH : Matrix (Fin r) (Fin r) ℝ, Chol x LG LH → extr jG jH h.QG h.RG h.QH h.RH (intr h.QG h.RG h.QH h.RH η) = proj LG LH x η := by
  obtain ⟨uG, uH⟩ := pt_low hm hn hx hh
  have main : ∀ ζ, IsHor x ζ → extr jG jH h.QG h.RG h.QH h.RH (intr h.QG h.RG h.QH h.RH ζ) = ζ := by
    intro ζ hζ
    obtain ⟨a, b⟩ := loops_extr_intr hm hn jG jH _ _ ((hor_blk hm hn hx hh ζ).mp hζ)
    rw [intr_eq, extr, a, b, back_blkOf hh.G uH, back_blkOf hh.H uG]
  refine ⟨main η, fun LG LH hL => ?_⟩
  obtain ⟨h1, h2, -⟩ := C76_projection hx hL η
  have e : intr h.QG h.RG h.QH h.RH η = intr h.QG h.RG h.QH h.RH (proj LG LH x η) := by
    rw [rep_blk hm hn hh, rep_blk hm hn hh] at h2
    have := congrArg (fun M => (orthO h.QG h.RG)ᵀ * (M * orthO h.QH h.RH)) h2
    simp only [Matrix.mul_assoc, orthO_orth hh.H, Matrix.mul_one] at this
    simp only [← Matrix.mul_assoc, orthO_orth hh.G, Matrix.one_mul] at this
    rw [intr_eq, intr_eq, loops_blk hm hn, loops_blk hm hn, this]
  rw [e, main _ h1]

/-- **C46 (two-factor fixed rank, transport).** The vector transport gives a horizontal pair of the new point and keeps the metric, for all pairs. -/
theorem C46_two_factor_transport (hm : r ≤ m) (hn : r ≤ n) {y : Pair ℝ (Fin m) (Fin n) (Fin r)} {k : Hou m n r} (hh : IsHou x h) (hy : IsPt y) (hk : IsHou y k)
    (jG jH : Nat → ℝ) (η ξ : Pair ℝ (Fin m) (Fin n) (Fin r)) :
    IsHor y (transport jG jH h k ξ) ∧ metric y (transport jG jH h k η) (transport jG jH h k ξ) = metric x η ξ := by
  obtain ⟨a, b⟩ := C37_two_factor_intr_extr hm hn hy hk jG jH _ (C37_two_factor_dim hm hn h η)
  obtain ⟨c, d⟩ := C37_two_factor_intr_extr hm hn hy hk jG jH _ (C37_two_factor_dim hm hn h ξ)
  refine ⟨d, ?_⟩
  rw [← C37_two_factor_isometry hm hn hk, transport, transport, a, c, C37_two_factor_isometry hm hn hh]

/-- **C46 (two-factor fixed rank, inverse transport).** What the extrinsic inverse transport computes: the projection at `x` of its argument, whatever `y` is. -/
theorem C46_two_factor_inverse_partial (hm : r ≤ m) (hn : r ≤ n) (hx : IsPt x) (hh : IsHou x h) (k : Hou m n r) (jG jH : Nat → ℝ) (ξ : Pair ℝ (Fin m) (Fin n) (Fin r))
    {LG LH : Matrix (Fin r) (Fin r) ℝ} (hL : Chol x LG LH) : invTransport jG jH h k ξ = proj LG LH x ξ :=
  (C37_two_factor_extr_intr hm hn hx hh jG jH ξ).2 LG LH hL

/-! ## Examples and the defect -/

/-- The pair of two numbers. -/
def one (a b : ℝ) : Pair ℝ (Fin 1) (Fin 1) (Fin 1) := ⟨!![a], !![b]⟩

/-- Householder data of `one a b`. -/
def oneH (a b : ℝ) : Hou 1 1 1 := ⟨1, !![a], 1, !![b]⟩

theorem one_hou (a b : ℝ) : IsHou (one a b) (oneH a b) := by
  refine ⟨⟨by simp [oneH], ?_⟩, ⟨by simp [oneH], ?_⟩⟩ <;> ext i j <;> fin_cases i <;> fin_cases j <;> simp [one, oneH, upper]

theorem one_pt {a b : ℝ} (ha : a ≠ 0) (hb : b ≠ 0) : IsPt (one a b) := by
  constructor <;> simp [one, Matrix.det_fin_one, Matrix.mul_apply, ha, hb]

theorem one_chol (a b : ℝ) : Chol (one a b) !![a] !![b] := by
  constructor <;> ext i j <;> fin_cases i <;> fin_cases j <;> simp [one, Matrix.mul_apply]

theorem one_hor {a b c d : ℝ} : IsHor (one a b) (one c d) ↔ a * c * (b * b) = a * a * (d * b) := by
  unfold IsHor
  rw [← Matrix.ext_iff]
  simp [one, Matrix.mul_apply]

theorem one_rep (a b c d : ℝ) : rep (one a b) (one c d) = !![c * b + a * d] := by
  ext i j
  fin_cases i; fin_cases j
  simp only [rep, one, conjTranspose_eq_transpose_of_trivial, Matrix.add_apply, Matrix.mul_apply, Finset.univ_unique, Finset.sum_singleton]
  rfl

/-- **C46 (inverse transport, negation).** The extrinsic inverse transport does not undo the transport: for `x = (1, 1)`, `y = (2, 1)` and the horizontal pair `(1, 1)`. -/
theorem C46_two_factor_inverse_fails (jG jH : Nat → ℝ) : ∃ (x y ξ : Pair ℝ (Fin 1) (Fin 1) (Fin 1)) (hx hy : Hou 1 1 1), IsPt x ∧ IsPt y ∧ IsHou x hx ∧ IsHou y hy ∧
    IsHor x ξ ∧ invTransport jG jH hx hy (transport jG jH hx hy ξ) ≠ ξ := by
  have px : IsPt (one 1 1) := one_pt one_ne_zero one_ne_zero
  have py : IsPt (one 2 1) := one_pt two_ne_zero one_ne_zero
  refine ⟨one 1 1, one 2 1, one 1 1, oneH 1 1, oneH 2 1, px, py, one_hou 1 1, one_hou 2 1, one_hor.mpr (by norm_num), ?_⟩
  intro e
  rw [C46_two_factor_inverse_partial le_rfl le_rfl px (one_hou 1 1) _ jG jH _ (one_chol 1 1)] at e
  obtain ⟨hor, met⟩ := C46_two_factor_transport le_rfl le_rfl (one_hou 1 1) py (one_hou 2 1) jG jH (one 1 1) (one 1 1)
  obtain ⟨-, hrep, -⟩ := C76_projection px (one_chol 1 1) (transport jG jH (oneH 1 1) (oneH 2 1) (one 1 1))
  rw [e] at hrep
  generalize transport jG jH (oneH 1 1) (oneH 2 1) (one 1 1) = t at *
  obtain ⟨G, H⟩ := t
  have hG : (⟨G, H⟩ : Pair ℝ (Fin 1) (Fin 1) (Fin 1)) = one (G 0 0) (H 0 0) := by
    simp only [one, Pair.mk.injEq]
    constructor <;> ext i j <;> fin_cases i <;> fin_cases j <;> rfl
  rw [hG] at hor met hrep
  rw [one_hor] at hor
  have r1 := congrFun (congrFun hrep 0) 0
  simp only [one_rep, Matrix.of_apply, Matrix.cons_val_zero] at r1
  rw [C76_metric, C76_metric, ip_real, ip_real, one_rep, one_rep] at met
  simp only [frob, Finset.univ_unique, Finset.sum_singleton, Fin.default_eq_zero, Matrix.of_apply, Matrix.cons_val_zero] at met
  have h1 : G 0 0 = 4 / 3 := by linarith
  have h2 : H 0 0 = 2 / 3 := by linarith
  rw [h1, h2] at met
  norm_num at met

example : IsHor (one 2 3) (one 4 6) ∧ IsPt (one 2 3) ∧ IsHou (one 2 3) (oneH 2 3) := ⟨one_hor.mpr (by norm_num), one_pt (by norm_num) (by norm_num), one_hou 2 3⟩

/-- Householder data with a negative diagonal entry and something below the diagonal. -/
example : IsHHR (!![-1, 5; 0, 3; 0, 0] : Matrix (Fin 3) (Fin 2) ℝ) 1 !![-1, 5; 7, 3; 8, 9] := by
  refine ⟨by simp, ?_⟩
  rw [Matrix.one_mul]
  ext i j
  fin_cases i <;> fin_cases j <;> simp [upper]

end Verif.Q2F
