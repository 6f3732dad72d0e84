import Verif.Manifold.CFixedRankIntr
import Verif.Manifold.CIntrLemmas
import Verif.Props.SymFR
import Verif.Props.Q2F
import Verif.Props.Q2FIntr
import Verif.Props.Dims
import Verif.Props.CStiefelIntr
import Mathlib.Tactic.LinearCombination

/-!
# C37, C46, C78 for the complex fixed-rank manifolds
-/

set_option linter.unusedSectionVars false
set_option linter.unusedVariables false

namespace Verif.CFixed

open Matrix Verif.Elem Verif.CMat Verif.CIntr
open Verif.Intr (pairs rest r2 r2_ne r2_mul_r2 buf dot mem_pairs mem_rest idx_of_pair idx_of_rest index_exists index_unique nodup_pairs nodup_rest length_rest
  two_mul_length_pairs dot_append dot_map sum_range_list sum_rest)
open Verif.Q2F (square Pair mem_square nodup_square length_square idx_of_square sum_sq)
open Verif.CStiefel (flat unflat rowSigns scaleRows ip_rsmul_left ip_rsmul_right conj_rsmul)
open Verif.Dense (cx)

variable {m n p r : ℕ}

/-- The upper triangle of what `geqp3_` stores. -/
def upper (R : Matrix (Fin m) (Fin r) ℂ) : Matrix (Fin m) (Fin r) ℂ := fun i j => if i.1 ≤ j.1 then R i j else 0

/-- Householder factorisation: `Q` unitary, `A` the product of `Q` and the upper triangle of `R`; what `R` holds below the diagonal is arbitrary. -/
structure IsHHR (A : Matrix (Fin m) (Fin r) ℂ) (h : Hou m r) : Prop where
  orth : h.Qᴴ * h.Q = 1
  eq : A = h.Q * upper h.R

/-! ## The frame -/

/-- The first columns of the identity. -/
def topI (m r : Nat) : Matrix (Fin m) (Fin r) ℂ := fun i j => if i.1 = j.1 then 1 else 0

/-- The signs as complex numbers. -/
noncomputable def csg (R : Matrix (Fin m) (Fin r) ℂ) : Fin m → ℂ := fun i => (rowSigns R i : ℂ)

theorem scale_eq (s : Fin m → ℝ) (A : Matrix (Fin m) (Fin r) ℂ) : scaleRows s A = diagonal (fun i => (s i : ℂ)) * A := by
  ext i j
  rw [Matrix.diagonal_mul]; rfl

/-- The unitary matrix with the signs absorbed. -/
noncomputable def orthO (h : Hou m r) : Matrix (Fin m) (Fin m) ℂ := h.Q * diagonal (csg h.R)

theorem csg_sq (R : Matrix (Fin m) (Fin r) ℂ) : diagonal (csg R) * diagonal (csg R) = 1 := by
  rw [diagonal_mul_diagonal, ← diagonal_one]
  congr 1
  funext i
  unfold csg rowSigns
  split
  · split <;> norm_num
  · norm_num

theorem csg_conj (R : Matrix (Fin m) (Fin r) ℂ) : (diagonal (csg R))ᴴ = diagonal (csg R) := by
  rw [diagonal_conjTranspose]
  congr 1
  funext i
  simp [csg]

variable {A : Matrix (Fin m) (Fin r) ℂ} {h : Hou m r}

theorem orthO_orth (hh : IsHHR A h) : (orthO h)ᴴ * orthO h = 1 := by
  rw [orthO, conjTranspose_mul, csg_conj, Matrix.mul_assoc, ← Matrix.mul_assoc h.Qᴴ, hh.orth, Matrix.one_mul, csg_sq]

theorem orthO_orth' (hh : IsHHR A h) : orthO h * (orthO h)ᴴ = 1 := mul_eq_one_comm.mp (orthO_orth hh)

theorem upper_eq (hm : r ≤ m) (R : Matrix (Fin m) (Fin r) ℂ) : upper R = diagonal (csg R) * (topI m r * (lowL R)ᴴ) := by
  ext i j
  rw [Matrix.diagonal_mul, Matrix.mul_apply, upper]
  by_cases hi : i.1 < r
  · rw [Finset.sum_eq_single (⟨i.1, hi⟩ : Fin r)]
    · rw [topI, if_pos rfl, one_mul, conjTranspose_apply, lowL]
      by_cases hij : i.1 ≤ j.1
      · rw [if_pos hij, if_neg (by rw [Fin.lt_def]; simp; omega)]
        simp only [csg, rowSigns, dif_pos hi]
        have e1 : flat R (i.1 + m * j.1) = R i j := by rw [Nat.mul_comm, CIntr.flat_apply R i.2 j.2]
        have e2 : flat R (i.1 + m * i.1) = R i ⟨i.1, hi⟩ := by rw [Nat.mul_comm, CIntr.flat_apply R i.2 hi]
        rw [e1, e2]
        by_cases hs : (R i ⟨i.1, hi⟩).re < 0
        · simp [hs]
        · simp [hs]
      · rw [if_neg hij, if_pos (by rw [Fin.lt_def]; simp; omega), star_zero, mul_zero]
    · intro b _ hb
      rw [topI, if_neg (fun e => hb (Fin.ext e.symm)), zero_mul]
    · simp
  · rw [if_neg (by omega), Finset.sum_eq_zero, mul_zero]
    intro b _
    rw [topI, if_neg (by omega), zero_mul]

theorem hhr_eq (hm : r ≤ m) (hh : IsHHR A h) : A = orthO h * (topI m r * (lowL h.R)ᴴ) := by
  rw [hh.eq, upper_eq hm, orthO, Matrix.mul_assoc]

theorem top_mul (A : Matrix (Fin m) (Fin r) ℂ) (hm : r ≤ m) (i j : Fin r) : ((topI m r)ᴴ * A) i j = A ⟨i.1, by omega⟩ j := by
  rw [Matrix.mul_apply, Finset.sum_eq_single (⟨i.1, by omega⟩ : Fin m)]
  · simp [topI, conjTranspose_apply]
  · intro b _ hb
    have : b.1 ≠ i.1 := fun e => hb (Fin.ext e)
    simp [topI, this, conjTranspose_apply]
  · simp

theorem topI_orth (hm : r ≤ m) : (topI m r)ᴴ * topI m r = 1 := by
  ext i j
  rw [top_mul _ hm, topI, one_apply]
  simp only [Fin.ext_iff]

theorem gram_low (hm : r ≤ m) (hh : IsHHR A h) : lowL h.R * (lowL h.R)ᴴ = Aᴴ * A := by
  have e := hhr_eq hm hh
  have : Aᴴ * A = lowL h.R * ((topI m r)ᴴ * (((orthO h)ᴴ * orthO h) * (topI m r * (lowL h.R)ᴴ))) := by
    conv_lhs => rw [e]
    simp only [conjTranspose_mul, conjTranspose_conjTranspose, Matrix.mul_assoc]
  rw [this, orthO_orth hh, Matrix.one_mul, ← Matrix.mul_assoc (topI m r)ᴴ, topI_orth hm, Matrix.one_mul]

theorem low_unit (hm : r ≤ m) (hh : IsHHR A h) (hA : IsUnit (Aᴴ * A).det) : IsUnit (lowL h.R).det := by
  rw [← gram_low hm hh, Matrix.det_mul] at hA
  exact isUnit_of_mul_isUnit_left hA

theorem blkOf_eq (h : Hou m r) (L : Matrix (Fin r) (Fin r) ℂ) (η : Matrix (Fin m) (Fin r) ℂ) : blkOf h L η = (orthO h)ᴴ * (η * L) := by
  rw [blkOf, scale_eq, orthO, conjTranspose_mul, csg_conj]
  simp only [Matrix.mul_assoc]
  rfl

theorem backOf_eq (h : Hou m r) (L : Matrix (Fin r) (Fin r) ℂ) (b : Nat → ℝ) : backOf h L b = orthO h * (unflat m r b * L⁻¹) := by
  rw [backOf, scale_eq, orthO, Matrix.mul_assoc]; rfl

theorem blkOf_back (hh : IsHHR A h) {L : Matrix (Fin r) (Fin r) ℂ} (hL : IsUnit L.det) (b : Nat → ℝ) : blkOf h L (backOf h L b) = unflat m r b := by
  rw [blkOf_eq, backOf_eq, Matrix.mul_assoc, Matrix.mul_assoc, nonsing_inv_mul _ hL, Matrix.mul_one, ← Matrix.mul_assoc, orthO_orth hh, Matrix.one_mul]

theorem back_blkOf (hh : IsHHR A h) {L : Matrix (Fin r) (Fin r) ℂ} (hL : IsUnit L.det) {b : Nat → ℝ} {η : Matrix (Fin m) (Fin r) ℂ} (e : unflat m r b = blkOf h L η) : backOf h L b = η := by
  rw [backOf_eq, e, blkOf_eq, Matrix.mul_assoc, Matrix.mul_assoc, mul_nonsing_inv _ hL, Matrix.mul_one, ← Matrix.mul_assoc, orthO_orth' hh, Matrix.one_mul]

theorem ip_unitary {O : Matrix (Fin m) (Fin m) ℂ} (hO : Oᴴ * O = 1) {k : Type*} [Fintype k] [DecidableEq k] (A B : Matrix (Fin m) k ℂ) : ip (O * A) (O * B) = ip A B := by
  rw [ip_mul_left, ← Matrix.mul_assoc, hO, Matrix.one_mul]

theorem ip_unitary_right {O : Matrix (Fin m) (Fin m) ℂ} (hO : Oᴴ * O = 1) {k : Type*} [Fintype k] [DecidableEq k] (A B : Matrix k (Fin m) ℂ) : ip (A * Oᴴ) (B * Oᴴ) = ip A B := by
  rw [ip_mul_right, conjTranspose_conjTranspose, Matrix.mul_assoc, hO, Matrix.mul_one]

/-- The inner product over the rows below the square. -/
noncomputable def restSum (A B : Matrix (Fin m) (Fin r) ℂ) : ℝ := ((rest m r).map fun q => rp (flat A (q.2 + q.1 * m)) (flat B (q.2 + q.1 * m))).sum

theorem flat_top (hm : r ≤ m) (A : Matrix (Fin m) (Fin r) ℂ) {i j : Nat} (hi : i < r) (hj : j < r) : flat ((topI m r)ᴴ * A) (i + j * r) = flat A (i + j * m) := by
  rw [CIntr.flat_apply _ hi hj, CIntr.flat_apply _ (by omega) hj, top_mul _ hm]

theorem ip_top (hm : r ≤ m) (A B : Matrix (Fin m) (Fin r) ℂ) : ip A B = ip ((topI m r)ᴴ * A) ((topI m r)ᴴ * B) + restSum A B := by
  rw [ip_split hm, ip_split le_rfl, restSum]
  have hrest : rest r r = [] := by
    apply List.eq_nil_of_length_eq_zero
    rw [length_rest, Nat.sub_self, Nat.mul_zero]
  rw [hrest, List.map_nil, List.sum_nil, add_zero]
  congr 2
  · refine Finset.sum_congr rfl fun i hi => ?_
    have hi := Finset.mem_range.mp hi
    rw [flat_top hm A hi hi, flat_top hm B hi hi]
  · congr 1
    refine List.map_congr_left fun q hq => ?_
    have hq := mem_pairs.mp hq
    rw [flat_top hm A (by omega) (by omega), flat_top hm B (by omega) (by omega), flat_top hm A (by omega) (by omega), flat_top hm B (by omega) (by omega)]

/-! ## Hermitian fixed rank: the loops -/

/-- The square on top is Hermitian. -/
def TopHerm (n p : Nat) (t : Nat → ℂ) : Prop := ∀ i j, i < p → j < p → t (i + j * n) = star (t (j + i * n))

theorem topHerm_iff (hp : p ≤ n) (A : Matrix (Fin n) (Fin p) ℂ) : TopHerm n p (flat A) ↔ ((topI n p)ᴴ * A)ᴴ = (topI n p)ᴴ * A := by
  constructor
  · intro k
    ext ⟨i, hi⟩ ⟨j, hj⟩
    have := k i j hi hj
    rw [CIntr.flat_apply _ (by omega) hj, CIntr.flat_apply _ (by omega) hi] at this
    rw [conjTranspose_apply, top_mul _ hp, top_mul _ hp]
    exact this.symm
  · intro k i j hi hj
    have := congrFun (congrFun k ⟨i, hi⟩) ⟨j, hj⟩
    rw [conjTranspose_apply, top_mul _ hp, top_mul _ hp] at this
    rw [CIntr.flat_apply _ (by omega) hj, CIntr.flat_apply _ (by omega) hi]
    exact this.symm

section loops
variable {f1 f2 f3 g1 g2 g3 : ℝ → ℝ}

/-- Both forms of the reading loops. -/
def gI (n p : Nat) (f1 f2 f3 : ℝ → ℝ) (t : Nat → ℂ) : List ℝ :=
  (List.range p).map (fun i => f1 (t (i + i * n)).re) ++
    (pairs p).flatMap (fun q => [f2 (t (q.2 + q.1 * n)).re, f2 (t (q.2 + q.1 * n)).im]) ++
    (rest n p).flatMap (fun q => [f3 (t (q.2 + q.1 * n)).re, f3 (t (q.2 + q.1 * n)).im])

/-- Both forms of the writing loops. -/
def gW (n p : Nat) (g1 g2 g3 : ℝ → ℝ) (c : Nat → ℝ) : List (Nat × ℝ) :=
  (List.range p).flatMap (fun i => [(2 * (i + i * n), g1 (c i)), (2 * (i + i * n) + 1, 0)]) ++
    (pairs p).zipIdx.flatMap (fun w => [(2 * (w.1.2 + w.1.1 * n), g2 (c (p + 2 * w.2))), (2 * (w.1.1 + w.1.2 * n), g2 (c (p + 2 * w.2))),
      (2 * (w.1.2 + w.1.1 * n) + 1, g2 (c (p + 2 * w.2 + 1))), (2 * (w.1.1 + w.1.2 * n) + 1, g2 (-c (p + 2 * w.2 + 1)))]) ++
    (rest n p).zipIdx.flatMap (fun w => [(2 * (w.1.2 + w.1.1 * n), g3 (c (p + 2 * (pairs p).length + 2 * w.2))),
      (2 * (w.1.2 + w.1.1 * n) + 1, g3 (c (p + 2 * (pairs p).length + 2 * w.2 + 1)))])

theorem mem_gW {c : Nat → ℝ} {a : Nat} {v : ℝ} : (a, v) ∈ gW n p g1 g2 g3 c ↔
    (∃ i < p, (a = 2 * (i + i * n) ∧ v = g1 (c i)) ∨ (a = 2 * (i + i * n) + 1 ∧ v = 0)) ∨
    (∃ i j k, (pairs p)[k]? = some (i, j) ∧ ((a = 2 * (j + i * n) ∧ v = g2 (c (p + 2 * k))) ∨ (a = 2 * (i + j * n) ∧ v = g2 (c (p + 2 * k))) ∨
      (a = 2 * (j + i * n) + 1 ∧ v = g2 (c (p + 2 * k + 1))) ∨ (a = 2 * (i + j * n) + 1 ∧ v = g2 (-c (p + 2 * k + 1))))) ∨
    (∃ i j k, (rest n p)[k]? = some (i, j) ∧ ((a = 2 * (j + i * n) ∧ v = g3 (c (p + 2 * (pairs p).length + 2 * k))) ∨
      (a = 2 * (j + i * n) + 1 ∧ v = g3 (c (p + 2 * (pairs p).length + 2 * k + 1))))) := by
  simp only [gW, List.mem_append, List.mem_range, List.mem_flatMap, List.mem_cons, List.not_mem_nil, or_false, Prod.mk.injEq, Prod.exists,
    List.mk_mem_zipIdx_iff_getElem?, or_assoc]

theorem gW_at {c : Nat → ℝ} (hp : p ≤ n) {a b e : Nat} {v : ℝ} (hb : b < n) (ha : a < p) (he : e ≤ 1) (hv : (2 * (b + a * n) + e, v) ∈ gW n p g1 g2 g3 c) :
    (b = a ∧ v = if e = 1 then 0 else g1 (c a)) ∨
    (∃ k, (pairs p)[k]? = some (a, b) ∧ v = g2 (c (p + 2 * k + e))) ∨
    (∃ k, (pairs p)[k]? = some (b, a) ∧ v = if e = 1 then g2 (-c (p + 2 * k + 1)) else g2 (c (p + 2 * k))) ∨
    (∃ k, (rest n p)[k]? = some (a, b) ∧ v = g3 (c (p + 2 * (pairs p).length + 2 * k + e))) := by
  rcases mem_gW.mp hv with ⟨i, hi, ⟨h, h'⟩ | ⟨h, h'⟩⟩ | ⟨i, j, k, hk, ⟨h, h'⟩ | ⟨h, h'⟩ | ⟨h, h'⟩ | ⟨h, h'⟩⟩ | ⟨i, j, k, hk, ⟨h, h'⟩ | ⟨h, h'⟩⟩
  · obtain rfl : e = 0 := by omega
    obtain ⟨rfl, rfl⟩ := colMajor_inj (by omega) (by omega) (by omega : b + a * n = i + i * n)
    exact Or.inl ⟨rfl, by simpa using h'⟩
  · obtain rfl : e = 1 := by omega
    obtain ⟨rfl, rfl⟩ := colMajor_inj (by omega) (by omega) (by omega : b + a * n = i + i * n)
    exact Or.inl ⟨rfl, by simpa using h'⟩
  · have := idx_of_pair hk
    obtain rfl : e = 0 := by omega
    obtain ⟨rfl, rfl⟩ := colMajor_inj (by omega) (by omega) (by omega : b + a * n = j + i * n)
    exact Or.inr (Or.inl ⟨k, hk, h'⟩)
  · have := idx_of_pair hk
    obtain rfl : e = 0 := by omega
    obtain ⟨rfl, rfl⟩ := colMajor_inj (by omega) (by omega) (by omega : b + a * n = i + j * n)
    exact Or.inr (Or.inr (Or.inl ⟨k, hk, by simpa using h'⟩))
  · have := idx_of_pair hk
    obtain rfl : e = 1 := by omega
    obtain ⟨rfl, rfl⟩ := colMajor_inj (by omega) (by omega) (by omega : b + a * n = j + i * n)
    exact Or.inr (Or.inl ⟨k, hk, h'⟩)
  · have := idx_of_pair hk
    obtain rfl : e = 1 := by omega
    obtain ⟨rfl, rfl⟩ := colMajor_inj (by omega) (by omega) (by omega : b + a * n = i + j * n)
    exact Or.inr (Or.inr (Or.inl ⟨k, hk, by simpa using h'⟩))
  · have := idx_of_rest hk
    obtain rfl : e = 0 := by omega
    obtain ⟨rfl, rfl⟩ := colMajor_inj (by omega) (by omega) (by omega : b + a * n = j + i * n)
    exact Or.inr (Or.inr (Or.inr ⟨k, hk, h'⟩))
  · have := idx_of_rest hk
    obtain rfl : e = 1 := by omega
    obtain ⟨rfl, rfl⟩ := colMajor_inj (by omega) (by omega) (by omega : b + a * n = j + i * n)
    exact Or.inr (Or.inr (Or.inr ⟨k, hk, h'⟩))

theorem gW_diag (hp : p ≤ n) (jk c : Nat → ℝ) {i : Nat} (hi : i < p) : cx (writeAll jk (gW n p g1 g2 g3 c)) (i + i * n) = ⟨g1 (c i), 0⟩ := by
  have key : ∀ e ≤ 1, ∀ v, (2 * (i + i * n) + e, v) ∈ gW n p g1 g2 g3 c → v = if e = 1 then 0 else g1 (c i) := by
    intro e he v hv
    rcases gW_at hp (by omega) hi he hv with ⟨_, h⟩ | ⟨k', hk', h⟩ | ⟨k', hk', h⟩ | ⟨k', hk', h⟩
    · exact h
    · have := idx_of_pair hk'; omega
    · have := idx_of_pair hk'; omega
    · have := idx_of_rest hk'; omega
  apply Complex.ext
  · exact writeAll_of_mem _ _ _ _ (mem_gW.mpr (Or.inl ⟨i, hi, Or.inl ⟨rfl, rfl⟩⟩)) fun v hv => by simpa using key 0 (by omega) v hv
  · exact writeAll_of_mem _ _ _ _ (mem_gW.mpr (Or.inl ⟨i, hi, Or.inr ⟨rfl, rfl⟩⟩)) fun v hv => by simpa using key 1 (by omega) v hv

theorem gW_lower (hp : p ≤ n) (jk c : Nat → ℝ) {i j k : Nat} (hk : (pairs p)[k]? = some (i, j)) :
    cx (writeAll jk (gW n p g1 g2 g3 c)) (j + i * n) = ⟨g2 (c (p + 2 * k)), g2 (c (p + 2 * k + 1))⟩ := by
  have hij := idx_of_pair hk
  have key : ∀ e ≤ 1, ∀ v, (2 * (j + i * n) + e, v) ∈ gW n p g1 g2 g3 c → v = g2 (c (p + 2 * k + e)) := by
    intro e he v hv
    rcases gW_at hp (by omega) (by omega) he hv with ⟨h, _⟩ | ⟨k', hk', h⟩ | ⟨k', hk', h⟩ | ⟨k', hk', h⟩
    · omega
    · rw [h, index_unique (nodup_pairs p) hk' hk]
    · have := idx_of_pair hk'; omega
    · have := idx_of_rest hk'; omega
  apply Complex.ext
  · exact writeAll_of_mem _ _ _ _ (mem_gW.mpr (Or.inr (Or.inl ⟨i, j, k, hk, Or.inl ⟨rfl, rfl⟩⟩))) (key 0 (by omega))
  · exact writeAll_of_mem _ _ _ _ (mem_gW.mpr (Or.inr (Or.inl ⟨i, j, k, hk, Or.inr (Or.inr (Or.inl ⟨rfl, rfl⟩))⟩))) (key 1 (by omega))

theorem gW_upper (hp : p ≤ n) (jk c : Nat → ℝ) {i j k : Nat} (hk : (pairs p)[k]? = some (i, j)) :
    cx (writeAll jk (gW n p g1 g2 g3 c)) (i + j * n) = ⟨g2 (c (p + 2 * k)), g2 (-c (p + 2 * k + 1))⟩ := by
  have hij := idx_of_pair hk
  have key : ∀ e ≤ 1, ∀ v, (2 * (i + j * n) + e, v) ∈ gW n p g1 g2 g3 c → v = if e = 1 then g2 (-c (p + 2 * k + 1)) else g2 (c (p + 2 * k)) := by
    intro e he v hv
    rcases gW_at hp (by omega) (by omega) he hv with ⟨h, _⟩ | ⟨k', hk', h⟩ | ⟨k', hk', h⟩ | ⟨k', hk', h⟩
    · omega
    · have := idx_of_pair hk'; omega
    · rw [h, index_unique (nodup_pairs p) hk' hk]
    · have := idx_of_rest hk'; omega
  apply Complex.ext
  · exact writeAll_of_mem _ _ _ _ (mem_gW.mpr (Or.inr (Or.inl ⟨i, j, k, hk, Or.inr (Or.inl ⟨rfl, rfl⟩)⟩))) (fun v hv => by simpa using key 0 (by omega) v hv)
  · exact writeAll_of_mem _ _ _ _ (mem_gW.mpr (Or.inr (Or.inl ⟨i, j, k, hk, Or.inr (Or.inr (Or.inr ⟨rfl, rfl⟩))⟩))) (fun v hv => by simpa using key 1 (by omega) v hv)

theorem gW_rest (hp : p ≤ n) (jk c : Nat → ℝ) {i j k : Nat} (hk : (rest n p)[k]? = some (i, j)) :
    cx (writeAll jk (gW n p g1 g2 g3 c)) (j + i * n) = ⟨g3 (c (p + 2 * (pairs p).length + 2 * k)), g3 (c (p + 2 * (pairs p).length + 2 * k + 1))⟩ := by
  have hij := idx_of_rest hk
  have key : ∀ e ≤ 1, ∀ v, (2 * (j + i * n) + e, v) ∈ gW n p g1 g2 g3 c → v = g3 (c (p + 2 * (pairs p).length + 2 * k + e)) := by
    intro e he v hv
    rcases gW_at hp (by omega) (by omega) he hv with ⟨h, _⟩ | ⟨k', hk', h⟩ | ⟨k', hk', h⟩ | ⟨k', hk', h⟩
    · omega
    · have := idx_of_pair hk'; omega
    · have := idx_of_pair hk'; omega
    · rw [h, index_unique (nodup_rest n p) hk' hk]
  apply Complex.ext
  · exact writeAll_of_mem _ _ _ _ (mem_gW.mpr (Or.inr (Or.inr ⟨i, j, k, hk, Or.inl ⟨rfl, rfl⟩⟩))) (key 0 (by omega))
  · exact writeAll_of_mem _ _ _ _ (mem_gW.mpr (Or.inr (Or.inr ⟨i, j, k, hk, Or.inr ⟨rfl, rfl⟩⟩))) (key 1 (by omega))

theorem gI_length (t : Nat → ℂ) : (gI n p f1 f2 f3 t).length = p + 2 * (pairs p).length + 2 * (rest n p).length := by
  simp only [gI, List.length_append, List.length_map, List.length_range, length_flat2]

theorem gI_diag (t : Nat → ℂ) {i : Nat} (hi : i < p) : buf (gI n p f1 f2 f3 t) i = f1 (t (i + i * n)).re :=
  buf_get (get_start (by simp [List.getElem?_range hi]))

theorem gI_pair (t : Nat → ℂ) {i j k : Nat} (hk : (pairs p)[k]? = some (i, j)) :
    buf (gI n p f1 f2 f3 t) (p + 2 * k) = f2 (t (j + i * n)).re ∧ buf (gI n p f1 f2 f3 t) (p + 2 * k + 1) = f2 (t (j + i * n)).im := by
  have h := getElem?_flat2 (pairs p) (fun q => f2 (t (q.2 + q.1 * n)).re) (fun q => f2 (t (q.2 + q.1 * n)).im) hk
  constructor
  · have := get_mid (a := (List.range p).map (fun i => f1 (t (i + i * n)).re)) (c := (rest n p).flatMap (fun q => [f3 (t (q.2 + q.1 * n)).re, f3 (t (q.2 + q.1 * n)).im])) h.1
    rw [List.length_map, List.length_range] at this
    exact buf_get this
  · have := get_mid (a := (List.range p).map (fun i => f1 (t (i + i * n)).re)) (c := (rest n p).flatMap (fun q => [f3 (t (q.2 + q.1 * n)).re, f3 (t (q.2 + q.1 * n)).im])) h.2
    rw [List.length_map, List.length_range] at this
    exact buf_get this

theorem gI_rest (t : Nat → ℂ) {i j k : Nat} (hk : (rest n p)[k]? = some (i, j)) :
    buf (gI n p f1 f2 f3 t) (p + 2 * (pairs p).length + 2 * k) = f3 (t (j + i * n)).re ∧ buf (gI n p f1 f2 f3 t) (p + 2 * (pairs p).length + 2 * k + 1) = f3 (t (j + i * n)).im := by
  have h := getElem?_flat2 (rest n p) (fun q => f3 (t (q.2 + q.1 * n)).re) (fun q => f3 (t (q.2 + q.1 * n)).im) hk
  constructor
  · have := get_end (a := (List.range p).map (fun i => f1 (t (i + i * n)).re)) (b := (pairs p).flatMap (fun q => [f2 (t (q.2 + q.1 * n)).re, f2 (t (q.2 + q.1 * n)).im])) h.1
    rw [List.length_map, List.length_range, length_flat2] at this
    exact buf_get this
  · have := get_end (a := (List.range p).map (fun i => f1 (t (i + i * n)).re)) (b := (pairs p).flatMap (fun q => [f2 (t (q.2 + q.1 * n)).re, f2 (t (q.2 + q.1 * n)).im])) h.2
    rw [List.length_map, List.length_range, length_flat2] at this
    exact buf_get this

theorem gI_gW (hp : p ≤ n) (hf1 : ∀ z, f1 (g1 z) = z) (hf2 : ∀ z, f2 (g2 z) = z) (hf3 : ∀ z, f3 (g3 z) = z) (jk : Nat → ℝ) (c : List ℝ)
    (hc : c.length = p + 2 * (pairs p).length + 2 * (rest n p).length) : gI n p f1 f2 f3 (flat (unflat n p (writeAll jk (gW n p g1 g2 g3 (buf c))))) = c := by
  refine list_ext_buf (by rw [gI_length, hc]) fun k hk => ?_
  rw [hc] at hk
  by_cases h1 : k < p
  · rw [gI_diag _ h1, CIntr.flat_unflat _ (by omega) h1, gW_diag hp _ _ h1, hf1]
  by_cases h2 : k < p + 2 * (pairs p).length
  · have hk' : (k - p) / 2 < (pairs p).length := by omega
    rcases hq : (pairs p)[(k - p) / 2] with ⟨i, j⟩
    have hg : (pairs p)[(k - p) / 2]? = some (i, j) := by rw [List.getElem?_eq_getElem hk', hq]
    have hij := idx_of_pair hg
    have e : k = p + 2 * ((k - p) / 2) ∨ k = p + 2 * ((k - p) / 2) + 1 := by omega
    generalize (k - p) / 2 = m at hg e
    rcases e with rfl | rfl
    · rw [(gI_pair _ hg).1, CIntr.flat_unflat _ (by omega) (by omega), gW_lower hp _ _ hg, hf2]
    · rw [(gI_pair _ hg).2, CIntr.flat_unflat _ (by omega) (by omega), gW_lower hp _ _ hg, hf2]
  · have hk' : (k - (p + 2 * (pairs p).length)) / 2 < (rest n p).length := by omega
    rcases hq : (rest n p)[(k - (p + 2 * (pairs p).length)) / 2] with ⟨i, j⟩
    have hg : (rest n p)[(k - (p + 2 * (pairs p).length)) / 2]? = some (i, j) := by rw [List.getElem?_eq_getElem hk', hq]
    have hij := idx_of_rest hg
    have e : k = p + 2 * (pairs p).length + 2 * ((k - (p + 2 * (pairs p).length)) / 2) ∨ k = p + 2 * (pairs p).length + 2 * ((k - (p + 2 * (pairs p).length)) / 2) + 1 := by omega
    generalize (k - (p + 2 * (pairs p).length)) / 2 = m at hg e
    rcases e with rfl | rfl
    · rw [(gI_rest _ hg).1, CIntr.flat_unflat _ (by omega) (by omega), gW_rest hp _ _ hg, hf3]
    · rw [(gI_rest _ hg).2, CIntr.flat_unflat _ (by omega) (by omega), gW_rest hp _ _ hg, hf3]

theorem gW_gI (hp : p ≤ n) (hg1 : ∀ z, g1 (f1 z) = z) (hg2 : ∀ z, g2 (f2 z) = z) (hn2 : ∀ z, g2 (-z) = -g2 z) (hg3 : ∀ z, g3 (f3 z) = z) (jk : Nat → ℝ)
    (A : Matrix (Fin n) (Fin p) ℂ) (hA : TopHerm n p (flat A)) : unflat n p (writeAll jk (gW n p g1 g2 g3 (buf (gI n p f1 f2 f3 (flat A))))) = A := by
  ext ⟨i, hi⟩ ⟨j, hj⟩
  show cx (writeAll jk _) (i + j * n) = _
  rw [← CIntr.flat_apply A hi hj]
  by_cases hip : i < p
  · have hs := hA i j hip hj
    rcases Nat.lt_trichotomy i j with h | h | h
    · obtain ⟨k, hk⟩ := index_exists (mem_pairs.mpr ⟨h, hj⟩)
      rw [gW_upper hp _ _ hk, (gI_pair _ hk).1, (gI_pair _ hk).2, hs, hn2, hg2, hg2]
      apply Complex.ext <;> simp
    · subst h
      rw [gW_diag hp _ _ hj, gI_diag _ hip, hg1]
      have := congrArg Complex.im hs
      simp only [Complex.star_def, Complex.conj_im] at this
      apply Complex.ext
      · rfl
      · simp only []; linarith
    · obtain ⟨k, hk⟩ := index_exists (mem_pairs.mpr ⟨h, hip⟩)
      rw [gW_lower hp _ _ hk, (gI_pair _ hk).1, (gI_pair _ hk).2, hg2, hg2]
  · obtain ⟨k, hk⟩ := index_exists (mem_rest.mpr ⟨hj, not_lt.mp hip, hi⟩)
    rw [gW_rest hp _ _ hk, (gI_rest _ hk).1, (gI_rest _ hk).2, hg3, hg3]

theorem gW_herm (hp : p ≤ n) (hn2 : ∀ z, g2 (-z) = -g2 z) (jk c : Nat → ℝ) : TopHerm n p (flat (unflat n p (writeAll jk (gW n p g1 g2 g3 c)))) := by
  intro i j hi hj
  rw [CIntr.flat_unflat _ (by omega) hj, CIntr.flat_unflat _ (by omega) hi]
  rcases Nat.lt_trichotomy i j with h | h | h
  · obtain ⟨k, hk⟩ := index_exists (mem_pairs.mpr ⟨h, hj⟩)
    rw [gW_upper hp _ _ hk, gW_lower hp _ _ hk, hn2]
    apply Complex.ext <;> simp
  · subst h
    rw [gW_diag hp _ _ hj]
    apply Complex.ext <;> simp
  · obtain ⟨k, hk⟩ := index_exists (mem_pairs.mpr ⟨h, hi⟩)
    rw [gW_upper hp _ _ hk, gW_lower hp _ _ hk, hn2]
    apply Complex.ext <;> simp

theorem gI_dot (hp : p ≤ n) (a b : ℝ) (h1 : ∀ y z, f1 y * f1 z = a * (y * z)) (h2 : ∀ y z, f2 y * f2 z = a * (2 * (y * z))) (h3 : ∀ y z, f3 y * f3 z = b * (y * z))
    {A B : Matrix (Fin n) (Fin p) ℂ} (hA : TopHerm n p (flat A)) (hB : TopHerm n p (flat B)) :
    dot (gI n p f1 f2 f3 (flat A)) (gI n p f1 f2 f3 (flat B)) = a * ip ((topI n p)ᴴ * A) ((topI n p)ᴴ * B) + b * restSum A B := by
  have hrest : rest p p = [] := by
    apply List.eq_nil_of_length_eq_zero
    rw [length_rest, Nat.sub_self, Nat.mul_zero]
  rw [ip_split le_rfl, hrest, List.map_nil, List.sum_nil, add_zero, gI, gI, dot_append (by simp only [List.length_append, List.length_map, length_flat2]), dot_append (by simp),
    dot_map, dot_flat2, dot_flat2, sum_range_list, mul_add, Finset.mul_sum, restSum, ← List.sum_map_mul_left, ← List.sum_map_mul_left]
  congr 2
  · refine Finset.sum_congr rfl fun i hi => ?_
    have hi := Finset.mem_range.mp hi
    have h := congrArg Complex.im (hA i i hi hi)
    simp only [Complex.star_def, Complex.conj_im] at h
    rw [flat_top hp A hi hi, flat_top hp B hi hi, rp, h1, show (flat A (i + i * n)).im = 0 by linarith]
    ring
  · congr 1
    refine List.map_congr_left ?_
    rintro ⟨i, j⟩ hq
    have hij := mem_pairs.mp hq
    have ha := hA i j (by omega) (by omega)
    have hb := hB i j (by omega) (by omega)
    simp only []
    rw [flat_top hp A (by omega) (by omega), flat_top hp B (by omega) (by omega), flat_top hp A (by omega) (by omega), flat_top hp B (by omega) (by omega), ha, hb, h2, h2]
    simp only [rp, Complex.star_def, Complex.conj_re, Complex.conj_im]
    ring
  · refine List.map_congr_left fun q hq => ?_
    rw [h3, h3, rp]; ring

end loops

/-! ## Hermitian fixed rank: geometry of the frame -/

section sym
open Verif.SymFR (IsPt IsHor rep metricE metricH hor_H C80_metric metricH_eq)
variable {x : Matrix (Fin n) (Fin p) ℂ} {h : Hou n p}

theorem hor_top (hp : p ≤ n) (hx : IsPt x) (hh : IsHHR x h) (η : Matrix (Fin n) (Fin p) ℂ) : IsHor metricH x η ↔ TopHerm n p (flat (blkOf h (lowL h.R) η)) := by
  have u := low_unit hp hh hx
  have e : xᴴ * η * (xᴴ * x) = lowL h.R * ((topI n p)ᴴ * blkOf h (lowL h.R) η) * (lowL h.R)ᴴ := by
    rw [← gram_low hp hh, blkOf_eq]
    conv_lhs => rw [hhr_eq hp hh]
    simp only [conjTranspose_mul, conjTranspose_conjTranspose, Matrix.mul_assoc]
  rw [hor_H, e, conjTranspose_mul, conjTranspose_mul, conjTranspose_conjTranspose, ← Matrix.mul_assoc, topHerm_iff hp]
  have u' : IsUnit ((lowL h.R)ᴴ).det := by rw [det_conjTranspose]; exact u.star
  constructor
  · intro k
    have := congrArg (fun M => (lowL h.R)⁻¹ * (M * ((lowL h.R)ᴴ)⁻¹)) k
    simpa only [Matrix.mul_assoc, mul_nonsing_inv _ u', Matrix.mul_one, nonsing_inv_mul_cancel_left _ _ u] using this
  · intro k; rw [k]

theorem metricH_blk (hp : p ≤ n) (hh : IsHHR x h) (η ξ : Matrix (Fin n) (Fin p) ℂ) : metricH x η ξ = ip (blkOf h (lowL h.R) η) (blkOf h (lowL h.R) ξ) := by
  have o : ((orthO h)ᴴ)ᴴ * (orthO h)ᴴ = 1 := by rw [conjTranspose_conjTranspose]; exact orthO_orth' hh
  rw [blkOf_eq, blkOf_eq, ip_unitary o, ip_mul_right', Matrix.mul_assoc, gram_low hp hh, metricH, ← ip_mul_left]

theorem rep_blk (hp : p ≤ n) (hx : IsPt x) (hh : IsHHR x h) (η : Matrix (Fin n) (Fin p) ℂ) :
    rep x η = orthO h * (blkOf h (lowL h.R) η * (topI n p)ᴴ + topI n p * (blkOf h (lowL h.R) η)ᴴ) * (orthO h)ᴴ := by
  have e := hhr_eq hp hh
  have o := orthO_orth' hh
  rw [rep, blkOf_eq]
  conv_lhs => rw [e]
  simp only [conjTranspose_mul, conjTranspose_conjTranspose, Matrix.mul_add, Matrix.add_mul]
  congr 1
  · simp only [← Matrix.mul_assoc]
    rw [o, Matrix.one_mul]
  · simp only [Matrix.mul_assoc]
    rw [o, Matrix.mul_one]

theorem metricE_blk (hp : p ≤ n) (hx : IsPt x) (hh : IsHHR x h) {η ξ : Matrix (Fin n) (Fin p) ℂ} (hξ : TopHerm n p (flat (blkOf h (lowL h.R) ξ))) :
    metricE x η ξ = 2 * ip (blkOf h (lowL h.R) η) (blkOf h (lowL h.R) ξ) + 2 * ip ((topI n p)ᴴ * blkOf h (lowL h.R) η) ((topI n p)ᴴ * blkOf h (lowL h.R) ξ) := by
  rw [C80_metric, rep_blk hp hx hh, rep_blk hp hx hh, ip_unitary_right (orthO_orth hh), ip_unitary (orthO_orth hh)]
  set A := blkOf h (lowL h.R) η
  set B := blkOf h (lowL h.R) ξ
  have t := topI_orth hp
  have hB := (topHerm_iff hp B).mp hξ
  have e1 : ip (A * (topI n p)ᴴ) (B * (topI n p)ᴴ) = ip A B := by
    rw [ip_mul_right, conjTranspose_conjTranspose, Matrix.mul_assoc, t, Matrix.mul_one]
  have e2 : ip (topI n p * Aᴴ) (topI n p * Bᴴ) = ip A B := by
    rw [ip_mul_left, ← Matrix.mul_assoc, t, Matrix.one_mul, ip_conjTranspose]
  have e3 : ip (A * (topI n p)ᴴ) (topI n p * Bᴴ) = ip ((topI n p)ᴴ * A) ((topI n p)ᴴ * B) := by
    rw [ip_mul_right, conjTranspose_conjTranspose, Matrix.mul_assoc, ip_mul_left', ← hB, conjTranspose_mul, conjTranspose_conjTranspose]
  have e4 : ip (topI n p * Aᴴ) (B * (topI n p)ᴴ) = ip ((topI n p)ᴴ * A) ((topI n p)ᴴ * B) := by
    rw [← e3, ← ip_conjTranspose]
    simp only [conjTranspose_mul, conjTranspose_conjTranspose]
  rw [ip_add_left, ip_add_right, ip_add_right, e1, e2, e3, e4]
  ring

/-! ## C37, C46, C78, C82: Hermitian fixed rank -/

/-- **C37 (Hermitian fixed rank, dimension).** `2 n p - p²` coordinates (CSymFixedRankQ.cpp:14-19). -/
theorem C37_herm_dim (hp : p ≤ n) (h : Hou n p) (η : Matrix (Fin n) (Fin p) ℂ) : (intrE h η).length = 2 * n * p - p * p ∧ (intrH h η).length = 2 * n * p - p * p := by
  rw [← CStiefel.length_eq hp]
  exact ⟨gI_length (f1 := fun z => 2 * z) (f2 := fun z => 2 * r2 * z) (f3 := fun z => r2 * z) _, gI_length (f1 := fun z => z) (f2 := fun z => r2 * z) (f3 := fun z => z) _⟩

/-- **C37 (Hermitian fixed rank, isometry, first metric).** On horizontal vectors the inner product of the coordinates is the metric. -/
theorem C37_herm_isometry_euc (hp : p ≤ n) (hx : IsPt x) (hh : IsHHR x h) {η ξ : Matrix (Fin n) (Fin p) ℂ} (hη : IsHor metricH x η) (hξ : IsHor metricH x ξ) :
    dot (intrE h η) (intrE h ξ) = metricE x η ξ := by
  rw [hor_top hp hx hh] at hη hξ
  rw [metricE_blk hp hx hh hξ, ip_top hp]
  have r := r2_mul_r2
  have := gI_dot (f1 := fun z => 2 * z) (f2 := fun z => 2 * r2 * z) (f3 := fun z => r2 * z) hp 4 2 (fun y z => by ring) (fun y z => by linear_combination 4 * y * z * r)
    (fun y z => by linear_combination y * z * r) hη hξ
  refine this.trans ?_
  ring

/-- **C37 (Hermitian fixed rank, isometry, second metric).** -/
theorem C37_herm_isometry_hgz (hp : p ≤ n) (hx : IsPt x) (hh : IsHHR x h) {η ξ : Matrix (Fin n) (Fin p) ℂ} (hη : IsHor metricH x η) (hξ : IsHor metricH x ξ) :
    dot (intrH h η) (intrH h ξ) = metricH x η ξ := by
  rw [hor_top hp hx hh] at hη hξ
  rw [metricH_blk hp hh, ip_top hp]
  have r := r2_mul_r2
  have := gI_dot (f1 := fun z => z) (f2 := fun z => r2 * z) (f3 := fun z => z) hp 1 1 (fun y z => by ring) (fun y z => by linear_combination y * z * r) (fun y z => by ring) hη hξ
  rw [one_mul, one_mul] at this
  exact this

/-- **C37 (Hermitian fixed rank, intrinsic → extrinsic → intrinsic).** The extrinsic vector is horizontal. -/
theorem C37_herm_intr_extr (hp : p ≤ n) (hx : IsPt x) (hh : IsHHR x h) (jk : Nat → ℝ) (c : List ℝ) (hc : c.length = 2 * n * p - p * p) :
    intrE h (extrE jk h c) = c ∧ IsHor metricH x (extrE jk h c) ∧ intrH h (extrH jk h c) = c ∧ IsHor metricH x (extrH jk h c) := by
  rw [← CStiefel.length_eq hp] at hc
  have u := low_unit hp hh hx
  have r := r2_ne
  refine ⟨?_, ?_, ?_, ?_⟩
  · rw [intrE, extrE, blkOf_back hh u]
    exact gI_gW (f1 := fun z => 2 * z) (f2 := fun z => 2 * r2 * z) (f3 := fun z => r2 * z) (g1 := fun z => z / 2) (g2 := fun z => z / r2 / 2) (g3 := fun z => z / r2) hp
      (fun z => by ring) (fun z => by field_simp) (fun z => by field_simp) jk c hc
  · rw [hor_top hp hx hh, extrE, blkOf_back hh u]
    exact gW_herm (g1 := fun z => z / 2) (g2 := fun z => z / r2 / 2) (g3 := fun z => z / r2) hp (fun z => by ring) jk _
  · rw [intrH, extrH, blkOf_back hh u]
    exact gI_gW (f1 := fun z => z) (f2 := fun z => r2 * z) (f3 := fun z => z) (g1 := fun z => z) (g2 := fun z => z / r2) (g3 := fun z => z) hp
      (fun z => rfl) (fun z => by field_simp) (fun z => rfl) jk c hc
  · rw [hor_top hp hx hh, extrH, blkOf_back hh u]
    exact gW_herm (g1 := fun z => z) (g2 := fun z => z / r2) (g3 := fun z => z) hp (fun z => by ring) jk _

/-- **C37 (Hermitian fixed rank, extrinsic → intrinsic → extrinsic).** Horizontal vectors come back. -/
theorem C37_herm_extr_intr (hp : p ≤ n) (hx : IsPt x) (hh : IsHHR x h) (jk : Nat → ℝ) {η : Matrix (Fin n) (Fin p) ℂ} (hη : IsHor metricH x η) :
    extrE jk h (intrE h η) = η ∧ extrH jk h (intrH h η) = η := by
  rw [hor_top hp hx hh] at hη
  have u := low_unit hp hh hx
  have r := r2_ne
  constructor
  · refine back_blkOf hh u ?_
    exact gW_gI (f1 := fun z => 2 * z) (f2 := fun z => 2 * r2 * z) (f3 := fun z => r2 * z) (g1 := fun z => z / 2) (g2 := fun z => z / r2 / 2) (g3 := fun z => z / r2) hp
      (fun z => by ring) (fun z => by field_simp) (fun z => by ring) (fun z => by field_simp) jk _ hη
  · refine back_blkOf hh u ?_
    exact gW_gI (f1 := fun z => z) (f2 := fun z => r2 * z) (f3 := fun z => z) (g1 := fun z => z) (g2 := fun z => z / r2) (g3 := fun z => z) hp
      (fun z => rfl) (fun z => by field_simp) (fun z => by ring) (fun z => rfl) jk _ hη

/-- **C46 (Hermitian fixed rank, transport by parallelisation, first metric).** The transported vector is horizontal at the new point, metrics are kept, and transporting back
gives the vector. -/
theorem C46_herm_transport_euc (hp : p ≤ n) {y : Matrix (Fin n) (Fin p) ℂ} {k : Hou n p} (hx : IsPt x) (hh : IsHHR x h) (hy : IsPt y) (hk : IsHHR y k) (jk : Nat → ℝ)
    {η ξ : Matrix (Fin n) (Fin p) ℂ} (hη : IsHor metricH x η) (hξ : IsHor metricH x ξ) :
    IsHor metricH y (transE jk h k ξ) ∧ metricE y (transE jk h k η) (transE jk h k ξ) = metricE x η ξ ∧ transE jk k h (transE jk h k ξ) = ξ := by
  have a := C37_herm_intr_extr hp hy hk jk _ (C37_herm_dim hp h η).1
  have b := C37_herm_intr_extr hp hy hk jk _ (C37_herm_dim hp h ξ).1
  refine ⟨b.2.1, ?_, ?_⟩
  · rw [transE, transE, ← C37_herm_isometry_euc hp hy hk a.2.1 b.2.1, a.1, b.1, C37_herm_isometry_euc hp hx hh hη hξ]
  · conv_lhs => rw [transE, transE]
    rw [b.1, (C37_herm_extr_intr hp hx hh jk hξ).1]

/-- **C46 (Hermitian fixed rank, transport by parallelisation, second metric).** -/
theorem C46_herm_transport_hgz (hp : p ≤ n) {y : Matrix (Fin n) (Fin p) ℂ} {k : Hou n p} (hx : IsPt x) (hh : IsHHR x h) (hy : IsPt y) (hk : IsHHR y k) (jk : Nat → ℝ)
    {η ξ : Matrix (Fin n) (Fin p) ℂ} (hη : IsHor metricH x η) (hξ : IsHor metricH x ξ) :
    IsHor metricH y (transH jk h k ξ) ∧ metricH y (transH jk h k η) (transH jk h k ξ) = metricH x η ξ ∧ transH jk k h (transH jk h k ξ) = ξ := by
  have a := C37_herm_intr_extr hp hy hk jk _ (C37_herm_dim hp h η).2
  have b := C37_herm_intr_extr hp hy hk jk _ (C37_herm_dim hp h ξ).2
  refine ⟨b.2.2.2, ?_, ?_⟩
  · rw [transH, transH, ← C37_herm_isometry_hgz hp hy hk a.2.2.2 b.2.2.2, a.2.2.1, b.2.2.1, C37_herm_isometry_hgz hp hx hh hη hξ]
  · conv_lhs => rw [transH, transH]
    rw [b.2.2.1, (C37_herm_extr_intr hp hx hh jk hξ).2]

/-- Horizontal space of the Hermitian fixed-rank manifold, a real vector space. -/
def tHerm (x : Matrix (Fin n) (Fin p) ℂ) : Submodule ℝ (Matrix (Fin n) (Fin p) ℂ) where
  carrier := {η | IsHor metricH x η}
  add_mem' := by
    intro a b h1 h2 Ω hΩ
    have e1 := h1 Ω hΩ
    have e2 := h2 Ω hΩ
    simp only [metricH, Matrix.mul_add, ip_add_right] at *
    rw [e1, e2, add_zero]
  zero_mem' := by
    intro Ω hΩ
    simp [metricH]
  smul_mem' := by
    intro c a h1 Ω hΩ
    have e1 := h1 Ω hΩ
    simp only [metricH, Matrix.mul_smul, ip_rsmul_right] at *
    rw [e1, mul_zero]

/-- **C78 (Hermitian fixed rank).** -/
theorem C78_herm (hp : p ≤ n) (hx : IsPt x) (hh : IsHHR x h) : (Module.finrank ℝ (tHerm x) : ℤ) = (Dims.csymFixedRankQ n p).intr ∧
    ∀ η, ((intrE h η).length : ℤ) = (Dims.csymFixedRankQ n p).len ∧ ((intrH h η).length : ℤ) = (Dims.csymFixedRankQ n p).len := by
  have hcast : ((2 * n * p - p * p : ℕ) : ℤ) = 2 * (n : ℤ) * p - p * p := by
    rw [Nat.cast_sub]
    · push_cast; ring
    · exact Nat.mul_le_mul_right p (by omega)
  refine ⟨?_, fun η => by rw [(C37_herm_dim hp h η).1, (C37_herm_dim hp h η).2, hcast, Dims.csymFixedRankQ]; exact ⟨rfl, rfl⟩⟩
  rw [Dims.finrank_of_coords (tHerm x) (2 * n * p - p * p) (metricH x) (intrH h) (extrH (fun _ => 0) h)
      (fun η _ => (C37_herm_dim hp h η).2) (fun c hc => (C37_herm_intr_extr hp hx hh _ c hc).2.2) (fun η hη => (C37_herm_extr_intr hp hx hh _ hη).2)
      (fun u hu v hv => C37_herm_isometry_hgz hp hx hh hu hv) (fun u u' v => by simp only [metricH, conjTranspose_add, Matrix.add_mul, ip_add_right])
      fun c u v => by simp only [metricH, conj_rsmul, Matrix.smul_mul, ip_rsmul_right], hcast, Dims.csymFixedRankQ]

/-- **C82 (Hermitian fixed rank, transport by projection, partial).** If the vector is horizontal at the new point as well, intrinsic and extrinsic vectors are transported alike. Missing: all
other vectors (see the negation below). -/
theorem C82_herm_projection_partial (hp : p ≤ n) {y : Matrix (Fin n) (Fin p) ℂ} {k : Hou n p} (hx : IsPt x) (hh : IsHHR x h) (hy : IsPt y) (jk : Nat → ℝ)
    {ξ : Matrix (Fin n) (Fin p) ℂ} (hξ : IsHor metricH x ξ) (hξ' : IsHor metricH y ξ) :
    transProjE jk h k (intrE h ξ) = intrE k (transProj y ξ) ∧ transProjH jk h k (intrH h ξ) = intrH k (transProj y ξ) := by
  obtain ⟨a, b⟩ := C37_herm_extr_intr hp hx hh jk hξ
  rw [transProjE, transProjH, a, b, transProj, (SymFR.C80_projection hy ξ).2.2.2.1 hξ']
  exact ⟨rfl, rfl⟩

end sym

/-! ### The defect and examples -/

section ex
open Verif.SymFR (IsPt IsHor rep metricE metricH hor_H proj)

/-- The identity. -/
def x2 : Matrix (Fin 2) (Fin 2) ℂ := !![1, 0; 0, 1]
/-- A unitary matrix. -/
def y2 : Matrix (Fin 2) (Fin 2) ℂ := !![0, Complex.I; 1, 0]
/-- A horizontal vector at the identity. -/
def v2 : Matrix (Fin 2) (Fin 2) ℂ := !![1, 0; 0, 0]

theorem hou_x2 : IsHHR x2 ⟨1, x2⟩ := by
  refine ⟨by simp, ?_⟩
  ext i j; fin_cases i <;> fin_cases j <;> simp [x2, upper]

theorem y2_orth : y2ᴴ * y2 = 1 := by
  ext i j; fin_cases i <;> fin_cases j <;> simp [y2, Matrix.mul_apply, conjTranspose_apply, Fin.sum_univ_two]

theorem hou_y2 : IsHHR y2 ⟨y2, x2⟩ := by
  refine ⟨y2_orth, ?_⟩
  ext i j; fin_cases i <;> fin_cases j <;> simp [x2, y2, upper, Matrix.mul_apply, Fin.sum_univ_two]

theorem pt_x2 : IsPt x2 := by
  have : x2 = 1 := by ext i j; fin_cases i <;> fin_cases j <;> simp [x2]
  simp [IsPt, this]
theorem pt_y2 : IsPt y2 := by simp [IsPt, y2_orth]

theorem hor_v2 : IsHor metricH x2 v2 := by
  rw [hor_H]
  ext i j; fin_cases i <;> fin_cases j <;> simp [x2, v2, Matrix.mul_apply, Fin.sum_univ_two, conjTranspose_apply]

theorem blk_2 (Q A : Matrix (Fin 2) (Fin 2) ℂ) : blkOf (⟨Q, x2⟩ : Hou 2 2) (lowL x2) A = Qᴴ * A := by
  have e : lowL x2 = 1 := by
    ext i j; fin_cases i <;> fin_cases j <;> simp [lowL, x2, flat]
  rw [blkOf, e, Matrix.mul_one]
  ext i j; fin_cases i <;> fin_cases j <;> simp [scaleRows, rowSigns, x2, show ¬ ((1 : ℝ) < 0) by norm_num]

theorem proj_2 : y2ᴴ * proj y2 v2 = !![0, Complex.I / 2; -Complex.I / 2, 0] := by
  simp only [proj, y2_orth, inv_one, Matrix.one_mul, Matrix.mul_sub, Matrix.mul_smul, ← Matrix.mul_assoc]
  ext i j
  fin_cases i <;> fin_cases j <;> simp [y2, v2, Matrix.mul_apply, Fin.sum_univ_two, conjTranspose_apply] <;> ring

theorem v2_blk : y2ᴴ * v2 = !![0, 0; -Complex.I, 0] := by
  ext i j
  fin_cases i <;> fin_cases j <;> simp [y2, v2, Matrix.mul_apply, Fin.sum_univ_two, conjTranspose_apply]

/-- **C82 (Hermitian fixed rank, negation).** The intrinsic transport by projection is not the extrinsic one: from the identity to `[0 i; 1 0]`, vector `[1 0; 0 0]`; both metrics. -/
theorem C82_herm_projection_fails (jk : Nat → ℝ) : ∃ (x y ξ : Matrix (Fin 2) (Fin 2) ℂ) (h k : Hou 2 2), IsPt x ∧ IsPt y ∧ IsHHR x h ∧ IsHHR y k ∧ IsHor metricH x ξ ∧
    transProjE jk h k (intrE h ξ) ≠ intrE k (transProj y ξ) ∧ transProjH jk h k (intrH h ξ) ≠ intrH k (transProj y ξ) := by
  obtain ⟨a, b⟩ := C37_herm_extr_intr le_rfl pt_x2 hou_x2 jk hor_v2
  refine ⟨x2, y2, v2, ⟨1, x2⟩, ⟨y2, x2⟩, pt_x2, pt_y2, hou_x2, hou_y2, hor_v2, ?_, ?_⟩
  · rw [transProjE, a, transProj]
    intro e
    rw [intrE, intrE, blk_2, blk_2, proj_2, v2_blk] at e
    have := congrArg (fun l => buf l 3) e
    simp [intrLoopsE, pairs, rest, flat, buf, List.range_succ] at this
    exact r2_ne (by linarith)
  · rw [transProjH, b, transProj]
    intro e
    rw [intrH, intrH, blk_2, blk_2, proj_2, v2_blk] at e
    have := congrArg (fun l => buf l 3) e
    simp [intrLoopsH, pairs, rest, flat, buf, List.range_succ] at this
    exact r2_ne (by linarith)

/-- The hypotheses of C37, C46 and C78 hold at two different points. -/
example : IsPt x2 ∧ IsPt y2 ∧ IsHHR x2 ⟨1, x2⟩ ∧ IsHHR y2 ⟨y2, x2⟩ ∧ IsHor metricH x2 v2 := ⟨pt_x2, pt_y2, hou_x2, hou_y2, hor_v2⟩

/-- The horizontal space at the complex `2 × 2` identity has real dimension four. -/
example : Module.finrank ℝ (tHerm x2) = 4 := by
  have := (C78_herm le_rfl pt_x2 hou_x2).1
  norm_num [Dims.csymFixedRankQ] at this
  exact_mod_cast this

end ex

end Verif.CFixed
