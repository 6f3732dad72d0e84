import Verif.Manifold.FixedRankNor
import Verif.Props.Decomp
import Mathlib.LinearAlgebra.Matrix.Trace
import Mathlib.LinearAlgebra.Matrix.NonsingularInverse
import Mathlib.LinearAlgebra.Matrix.PosDef
import Mathlib.Algebra.Order.Star.Real

/-!
# C109: normal vectors of the fixed-rank manifold
-/

open Matrix Verif.Elem

namespace Verif.FixedRankNor

open Verif.Decomp

variable {m n r : Nat}

/-- The stored factors have orthonormal columns and the stored reflectors, if there are any, belong to them. -/
structure Ok (L : Lapack ℝ) (m n r : Nat) (x : Pt) : Prop where
  Um : x.U.m = m
  Un : x.U.n = r
  Vm : x.V.m = n
  Vn : x.V.n = r
  Uo : (view m r m x.U.get)ᵀ * view m r m x.U.get = 1
  Vo : (view n r n x.V.get)ᵀ * view n r n x.V.get = 1
  Uh : ∀ F, x.U.house = some F → F = L.geqp3 m r x.U.get
  Vh : ∀ F, x.V.house = some F → F = L.geqp3 n r x.V.get
  Uq : IsQR m r x.U.get (L.geqp3 m r x.U.get)
  Vq : IsQR n r x.V.get (L.geqp3 n r x.V.get)

/-- `N` is normal at `U D Vᵀ`: orthogonal to every tangent vector `U A Vᵀ + B Vᵀ + U Cᵀ`. -/
def Normal (U : Matrix (Fin m) (Fin r) ℝ) (V : Matrix (Fin n) (Fin r) ℝ) (N : Matrix (Fin m) (Fin n) ℝ) : Prop :=
  ∀ (B : Matrix (Fin m) (Fin r) ℝ) (C : Matrix (Fin n) (Fin r) ℝ), trace (Nᵀ * (B * Vᵀ + U * Cᵀ)) = 0

/-! ## Lemmas -/

theorem block_at (junk M : Nat → ℝ) {i j : Nat} (hj : j < m - r) (hi : i < n - r) : block m n r junk M (j + i * (m - r)) = M (j + r + (i + r) * m) := by
  refine writeAll_of_mem _ _ _ _ (mem_forN.mpr ⟨i, hi, mem_forN.mpr ⟨j, hj, by simp⟩⟩) fun y hy => ?_
  obtain ⟨i', _, h1⟩ := mem_forN.mp hy
  obtain ⟨j', hj', h2⟩ := mem_forN.mp h1
  simp only [List.mem_singleton, Prod.mk.injEq] at h2
  obtain ⟨rfl, rfl⟩ := colMajor_inj hj hj' h2.1
  exact h2.2

theorem pad_at (junk K : Nat → ℝ) {i j : Nat} (hj : j < m) (hi : i < n) :
    pad m n r junk K (j + i * m) = if i < r ∨ j < r then 0 else K (j - r + (i - r) * (m - r)) := by
  refine writeAll_of_mem _ _ _ _ (mem_forN.mpr ⟨i, hi, mem_forN.mpr ⟨j, hj, by simp⟩⟩) fun y hy => ?_
  obtain ⟨i', _, h1⟩ := mem_forN.mp hy
  obtain ⟨j', hj', h2⟩ := mem_forN.mp h1
  simp only [List.mem_singleton, Prod.mk.injEq] at h2
  obtain ⟨rfl, rfl⟩ := colMajor_inj hj hj' h2.1
  exact h2.2

theorem flat_at (M : Matrix (Fin m) (Fin n) ℝ) (j : Fin m) (i : Fin n) : flat M (j + i * m) = M j i := by
  have hm : 0 < m := by have := j.2; omega
  have h1 : (j.1 + i * m) % m = j := by rw [Nat.add_mul_mod_self_right, Nat.mod_eq_of_lt j.2]
  have h2 : (j.1 + i * m) / m = i := by rw [Nat.add_mul_div_right _ _ hm, Nat.div_eq_of_lt j.2, Nat.zero_add]
  rw [flat, dif_pos ⟨by rw [h1]; exact j.2, by rw [h2]; exact i.2⟩]
  congr 1 <;> exact Fin.ext (by assumption)

/-- Frobenius' lemma: normal means `Uᵀ N = 0` and `N V = 0`. -/
theorem normal_iff {U : Matrix (Fin m) (Fin r) ℝ} {V : Matrix (Fin n) (Fin r) ℝ} {N : Matrix (Fin m) (Fin n) ℝ} :
    Normal U V N ↔ Uᵀ * N = 0 ∧ N * V = 0 := by
  constructor
  · intro h
    constructor
    · have h1 := h 0 (Nᵀ * U)
      rw [Matrix.zero_mul, zero_add, transpose_mul, transpose_transpose, ← Matrix.mul_assoc, trace_mul_comm, Matrix.mul_assoc] at h1
      have h2 : trace ((Uᵀ * N)ᵀ * (Uᵀ * N)) = 0 := by
        rw [transpose_mul, transpose_transpose, trace_mul_comm]
        rw [← h1, ← trace_transpose]
        congr 1
        simp [transpose_mul, Matrix.mul_assoc]
      exact (trace_conjTranspose_mul_self_eq_zero_iff (A := Uᵀ * N)).mp (by rw [conjTranspose_eq_transpose_of_trivial]; exact h2)
    · have h1 := h (N * V) 0
      rw [transpose_zero, Matrix.mul_zero, add_zero] at h1
      refine (trace_conjTranspose_mul_self_eq_zero_iff (A := N * V)).mp ?_
      rw [conjTranspose_eq_transpose_of_trivial, transpose_mul, ← h1, Matrix.mul_assoc, trace_mul_comm]
      simp only [Matrix.mul_assoc]
  · rintro ⟨h1, h2⟩ B C
    have h3 : Nᵀ * U = 0 := by rw [← transpose_inj, transpose_mul, transpose_transpose, h1, transpose_zero]
    have h4 : Vᵀ * Nᵀ = 0 := by rw [← transpose_mul, h2, transpose_zero]
    rw [Matrix.mul_add, trace_add, ← Matrix.mul_assoc, ← Matrix.mul_assoc, h3, Matrix.zero_mul, trace_zero, add_zero, trace_mul_comm, ← Matrix.mul_assoc, h4, Matrix.zero_mul, trace_zero]

theorem rows_zero {c : Nat} (h : r ≤ m) {Q : Matrix (Fin m) (Fin m) ℝ} (hQ : Qᵀ * Q = 1) {T U : Matrix (Fin m) (Fin r) ℝ} (hT : ∀ j c, r ≤ j.1 → T j c = 0)
    (hU : Q * T = U) (hUo : Uᵀ * U = 1) (E : Matrix (Fin m) (Fin c) ℝ) : Uᵀ * E = 0 ↔ ∀ j i, j.1 < r → (Qᵀ * E) j i = 0 := by
  obtain ⟨k, rfl⟩ := Nat.exists_eq_add_of_le h
  have key : ∀ {d : Nat} (X : Matrix (Fin (r + k)) (Fin d) ℝ), Tᵀ * X = (T.submatrix (Fin.castAdd k) id)ᵀ * X.submatrix (Fin.castAdd k) id := by
    intro d X
    ext a b
    rw [mul_apply, mul_apply, Fin.sum_univ_add]
    have h0 : ∑ i : Fin k, Tᵀ a (Fin.natAdd r i) * X (Fin.natAdd r i) b = 0 :=
      Finset.sum_eq_zero fun i _ => by rw [transpose_apply, hT _ _ (by simp), zero_mul]
    rw [h0, add_zero]
    rfl
  have e1 : Uᵀ * E = Tᵀ * (Qᵀ * E) := by rw [← hU, transpose_mul, Matrix.mul_assoc]
  have e2 : Tᵀ * T = 1 := by rw [← hUo, ← hU, transpose_mul, Matrix.mul_assoc, ← Matrix.mul_assoc Qᵀ, hQ, Matrix.one_mul]
  have e3 : T.submatrix (Fin.castAdd k) id * (T.submatrix (Fin.castAdd k) id)ᵀ = 1 := by
    rw [mul_eq_one_comm, ← key, e2]
  rw [e1, key]
  constructor
  · intro h1 j i hj
    have h2 : (Qᵀ * E).submatrix (Fin.castAdd k) id = 0 := by
      have := congrArg (fun Z => T.submatrix (Fin.castAdd k) id * Z) h1
      simpa only [← Matrix.mul_assoc, e3, Matrix.one_mul, Matrix.mul_zero] using this
    have h3 := congrFun (congrFun h2 ⟨j.1, hj⟩) i
    exact h3
  · intro h1
    have h2 : (Qᵀ * E).submatrix (Fin.castAdd k) id = 0 := by
      ext a b
      exact h1 _ _ (by simp)
    rw [h2, Matrix.mul_zero]

/-- The full orthogonal factor of an `m × r` matrix. -/
noncomputable abbrev QQ (L : Lapack ℝ) (m r : Nat) (A : Nat → ℝ) : Matrix (Fin m) (Fin m) ℝ := fullQ m (min m r) (L.geqp3 m r A)

theorem QQ_left {L : Lapack ℝ} {A : Nat → ℝ} (h : IsQR m r A (L.geqp3 m r A)) : (QQ L m r A)ᵀ * QQ L m r A = 1 := by
  have := fullQ_unitary h
  rwa [conjTranspose_eq_transpose_of_trivial] at this

theorem QQ_right {L : Lapack ℝ} {A : Nat → ℝ} (h : IsQR m r A (L.geqp3 m r A)) : QQ L m r A * (QQ L m r A)ᵀ = 1 :=
  mul_eq_one_comm.mp (QQ_left h)

theorem QQ_rows {c : Nat} {L : Lapack ℝ} {A : Nat → ℝ} (hr : r ≤ m) (h : IsQR m r A (L.geqp3 m r A)) (ho : (view m r m A)ᵀ * view m r m A = 1) (E : Matrix (Fin m) (Fin c) ℝ) :
    (view m r m A)ᵀ * E = 0 ↔ ∀ j i, j.1 < r → ((QQ L m r A)ᵀ * E) j i = 0 := by
  refine rows_zero hr (QQ_left h) ?_ h.factor ho E
  intro j c hj
  rw [upper, of_apply, if_neg (by have := c.2; omega)]

theorem normal_rows {L : Lapack ℝ} {x : Pt} (h : Ok L m n r x) (hm : r ≤ m) (hn : r ≤ n) (N : Matrix (Fin m) (Fin n) ℝ) :
    Normal (view m r m x.U.get) (view n r n x.V.get) N ↔
      ∀ j i, j.1 < r ∨ i.1 < r → ((QQ L m r x.U.get)ᵀ * N * QQ L n r x.V.get) j i = 0 := by
  have e : N * view n r n x.V.get = 0 ↔ (view n r n x.V.get)ᵀ * Nᵀ = 0 := by
    rw [← transpose_mul, ← transpose_inj (A := N * _), transpose_zero]
  have e2 : (QQ L m r x.U.get)ᵀ * N * QQ L n r x.V.get = ((QQ L n r x.V.get)ᵀ * (Nᵀ * QQ L m r x.U.get))ᵀ := by
    simp [transpose_mul, Matrix.mul_assoc]
  rw [normal_iff, e, QQ_rows hm h.Uq h.Uo, QQ_rows hn h.Vq h.Vo]
  constructor
  · rintro ⟨h1, h2⟩ j i (hj | hi)
    · rw [mul_apply]
      exact Finset.sum_eq_zero fun k _ => by rw [h1 j k hj, zero_mul]
    · rw [e2, transpose_apply, ← Matrix.mul_assoc, mul_apply]
      exact Finset.sum_eq_zero fun k _ => by rw [h2 i k hi, zero_mul]
  · intro h1
    constructor
    · intro j i hj
      have e3 : (QQ L m r x.U.get)ᵀ * N = ((QQ L m r x.U.get)ᵀ * N * QQ L n r x.V.get) * (QQ L n r x.V.get)ᵀ := by
        rw [Matrix.mul_assoc _ (QQ L n r x.V.get), QQ_right h.Vq, Matrix.mul_one]
      rw [e3, mul_apply]
      exact Finset.sum_eq_zero fun k _ => by rw [h1 j k (Or.inl hj), zero_mul]
    · intro i j hi
      have e3 : (QQ L n r x.V.get)ᵀ * Nᵀ = ((QQ L m r x.U.get)ᵀ * N * QQ L n r x.V.get)ᵀ * (QQ L m r x.U.get)ᵀ := by
        rw [e2, transpose_transpose, Matrix.mul_assoc, Matrix.mul_assoc, QQ_right h.Uq, Matrix.mul_one]
      rw [e3, mul_apply]
      exact Finset.sum_eq_zero fun k _ => by rw [transpose_apply, h1 k i (Or.inr hi), zero_mul]

theorem hhr_some {L : Lapack ℝ} {x : Elt ℝ} {m r : Nat} (hm : x.m = m) (hn : x.n = r) (hh : ∀ F, x.house = some F → F = L.geqp3 m r x.get) :
    (hhrDecom L x).house = some (L.geqp3 m r x.get) ∧ (hhrDecom L x).m = m ∧ (hhrDecom L x).n = r ∧ (hhrDecom L x).get = x.get := by
  subst hm hn
  unfold hhrDecom
  cases hx : x.house with
  | none => simp
  | some F => simp [hx, hh F hx]

theorem norIntr_eq {L : Lapack ℝ} {x : Pt} (h : Ok L m n r x) (hU : x.U.house.isSome) (hV : x.V.house.isSome) (junk : Nat → ℝ) (E : Matrix (Fin m) (Fin n) ℝ) :
    norIntr m n r junk x E = some (block m n r junk (flat ((QQ L m r x.U.get)ᵀ * E * QQ L n r x.V.get))) := by
  obtain ⟨FU, hFU⟩ := Option.isSome_iff_exists.mp hU
  obtain ⟨FV, hFV⟩ := Option.isSome_iff_exists.mp hV
  have e1 := h.Uh FU hFU
  have e2 := h.Vh FV hFV
  subst e1 e2
  simp [norIntr, hFU, hFV, hhrMtp, ormqr, h.Um, h.Vm, h.Un, h.Vn, conjTranspose_eq_transpose_of_trivial]

theorem norExtr_eq {L : Lapack ℝ} {x : Pt} (h : Ok L m n r x) (junk K : Nat → ℝ) :
    norExtr L m n r junk x K = some (QQ L m r x.U.get * view m n m (pad m n r junk K) * (QQ L n r x.V.get)ᵀ, ⟨hhrDecom L x.U, hhrDecom L x.V⟩) := by
  obtain ⟨u1, u2, u3, _⟩ := hhr_some h.Um h.Un h.Uh
  obtain ⟨v1, v2, v3, _⟩ := hhr_some h.Vm h.Vn h.Vh
  simp [norExtr, u1, u2, u3, v1, v2, v3, hhrMtp, ormqr, conjTranspose_eq_transpose_of_trivial]

theorem ok_after {L : Lapack ℝ} {x : Pt} (h : Ok L m n r x) : Ok L m n r ⟨hhrDecom L x.U, hhrDecom L x.V⟩ := by
  obtain ⟨u1, u2, u3, u4⟩ := hhr_some h.Um h.Un h.Uh
  obtain ⟨v1, v2, v3, v4⟩ := hhr_some h.Vm h.Vn h.Vh
  refine ⟨u2, u3, v2, v3, ?_, ?_, ?_, ?_, ?_, ?_⟩ <;> simp only [u4, v4]
  · exact h.Uo
  · exact h.Vo
  · intro F hF
    rw [u1] at hF
    exact (Option.some.inj hF).symm
  · intro F hF
    rw [v1] at hF
    exact (Option.some.inj hF).symm
  · exact h.Uq
  · exact h.Vq

theorem pad_view (junk K : Nat → ℝ) (j : Fin m) (i : Fin n) : view m n m (pad m n r junk K) j i = if i.1 < r ∨ j.1 < r then 0 else K (j - r + (i - r) * (m - r)) :=
  pad_at junk K j.2 i.2

/-- A double sum over the lower right block. -/
theorem sum_block (hm : r ≤ m) (hn : r ≤ n) (g : Nat → ℝ) : ∑ i : Fin n, ∑ j : Fin m, (if i.1 < r ∨ j.1 < r then 0 else g (j - r + (i - r) * (m - r))) = ∑ p ∈ Finset.range ((m - r) * (n - r)), g p := by
  obtain ⟨k, rfl⟩ := Nat.exists_eq_add_of_le hm
  obtain ⟨l, rfl⟩ := Nat.exists_eq_add_of_le hn
  rw [Fin.sum_univ_add, Finset.sum_eq_zero (s := (Finset.univ : Finset (Fin r))), zero_add]
  · have e : ∀ i : Fin l, ∑ j : Fin (r + k), (if (Fin.natAdd r i).1 < r ∨ j.1 < r then 0 else g (j - r + ((Fin.natAdd r i).1 - r) * (r + k - r))) = ∑ j : Fin k, g (j + i * k) := by
      intro i
      rw [Fin.sum_univ_add, Finset.sum_eq_zero (s := (Finset.univ : Finset (Fin r))), zero_add]
      · refine Finset.sum_congr rfl fun j _ => ?_
        rw [if_neg (by simp)]
        congr 1
        simp
      · intro j _
        rw [if_pos (by simp)]
    simp only [e]
    rw [Nat.add_sub_cancel_left, Nat.add_sub_cancel_left, mul_comm k l, Finset.sum_range, ← Equiv.sum_comp finProdFinEquiv, Fintype.sum_prod_type]
    refine Finset.sum_congr rfl fun i _ => Finset.sum_congr rfl fun j _ => ?_
    simp [finProdFinEquiv, mul_comm]
  · intro i _
    exact Finset.sum_eq_zero fun j _ => by rw [if_pos (by simp)]

/-! ## The theorems -/

/-- **C109.** `ObtainNorVerExtr` returns, for every contents of memory, a normal vector; it leaves the point unchanged up to the decompositions it stores; reading the coordinates of the
result back afterwards returns the given ones; and it preserves inner products. -/
theorem C109_extr {L : Lapack ℝ} {x : Pt} (h : Ok L m n r x) (hm : r ≤ m) (hn : r ≤ n) (junk K : Nat → ℝ) :
    ∃ N x', norExtr L m n r junk x K = some (N, x') ∧ Normal (view m r m x.U.get) (view n r n x.V.get) N ∧
      (Ok L m n r x' ∧ x'.U.get = x.U.get ∧ x'.V.get = x.V.get) ∧
      (∀ junk', ∃ c, norIntr m n r junk' x' N = some c ∧ ∀ p < (m - r) * (n - r), c p = K p) ∧
      ∀ junk₂ K₂ N₂ x₂, norExtr L m n r junk₂ x K₂ = some (N₂, x₂) → trace (Nᵀ * N₂) = ∑ p ∈ Finset.range ((m - r) * (n - r)), K p * K₂ p := by
  obtain ⟨u1, u2, u3, u4⟩ := hhr_some h.Um h.Un h.Uh
  obtain ⟨v1, v2, v3, v4⟩ := hhr_some h.Vm h.Vn h.Vh
  have back (B : Matrix (Fin m) (Fin n) ℝ) : (QQ L m r x.U.get)ᵀ * (QQ L m r x.U.get * B * (QQ L n r x.V.get)ᵀ) * QQ L n r x.V.get = B := by
    rw [Matrix.mul_assoc _ B, ← Matrix.mul_assoc, QQ_left h.Uq, Matrix.one_mul, Matrix.mul_assoc, QQ_left h.Vq, Matrix.mul_one]
  refine ⟨_, _, norExtr_eq h junk K, ?_, ⟨ok_after h, u4, v4⟩, ?_, ?_⟩
  · rw [normal_rows h hm hn]
    intro j i hji
    rw [back, pad_view, if_pos hji.symm]
  · intro junk'
    refine ⟨_, norIntr_eq (ok_after h) (by simp [u1]) (by simp [v1]) junk' _, ?_⟩
    intro p hp
    obtain ⟨j, hj, i, hi, rfl⟩ := colMajor_surj hp
    have e := flat_at (view m n m (pad m n r junk K)) ⟨j + r, by omega⟩ ⟨i + r, by omega⟩
    simp only [u4, v4]
    rw [block_at _ _ hj hi, back, e, pad_view, if_neg (by simp)]
    simp
  · intro junk₂ K₂ N₂ x₂ h2
    rw [norExtr_eq h] at h2
    obtain ⟨rfl, _⟩ := Prod.mk.inj (Option.some.inj h2)
    have e : (QQ L m r x.U.get * view m n m (pad m n r junk K) * (QQ L n r x.V.get)ᵀ)ᵀ * (QQ L m r x.U.get * view m n m (pad m n r junk₂ K₂) * (QQ L n r x.V.get)ᵀ) =
        QQ L n r x.V.get * ((view m n m (pad m n r junk K))ᵀ * view m n m (pad m n r junk₂ K₂) * (QQ L n r x.V.get)ᵀ) := by
      rw [transpose_mul, transpose_mul, transpose_transpose]
      simp only [Matrix.mul_assoc]
      rw [← Matrix.mul_assoc (QQ L m r x.U.get)ᵀ, QQ_left h.Uq, Matrix.one_mul]
    rw [e, trace_mul_comm, Matrix.mul_assoc, QQ_left h.Vq, Matrix.mul_one, ← sum_block hm hn fun p => K p * K₂ p, trace]
    refine Finset.sum_congr rfl fun i _ => ?_
    rw [diag_apply, mul_apply]
    refine Finset.sum_congr rfl fun j _ => ?_
    rw [transpose_apply, pad_view, pad_view]
    by_cases hij : i.1 < r ∨ j.1 < r
    · rw [if_pos hij, if_pos hij, if_pos hij, zero_mul]
    · rw [if_neg hij, if_neg hij, if_neg hij]

/-- **C109.** Once the decompositions are stored, every normal vector is recovered from its coordinates. -/
theorem C109_intr {L : Lapack ℝ} {x : Pt} (h : Ok L m n r x) (hm : r ≤ m) (hn : r ≤ n) (hU : x.U.house.isSome) (hV : x.V.house.isSome) (junk junk' : Nat → ℝ)
    {N : Matrix (Fin m) (Fin n) ℝ} (hN : Normal (view m r m x.U.get) (view n r n x.V.get) N) :
    ∃ c, norIntr m n r junk x N = some c ∧ norExtr L m n r junk' x c = some (N, x) := by
  have hx : (⟨hhrDecom L x.U, hhrDecom L x.V⟩ : Pt) = x := by
    obtain ⟨FU, hFU⟩ := Option.isSome_iff_exists.mp hU
    obtain ⟨FV, hFV⟩ := Option.isSome_iff_exists.mp hV
    simp [hhrDecom, hFU, hFV]
  refine ⟨_, norIntr_eq h hU hV junk N, ?_⟩
  rw [norExtr_eq h, hx]
  rw [normal_rows h hm hn] at hN
  have e : view m n m (pad m n r junk' (block m n r junk (flat ((QQ L m r x.U.get)ᵀ * N * QQ L n r x.V.get)))) = (QQ L m r x.U.get)ᵀ * N * QQ L n r x.V.get := by
    ext j i
    rw [pad_view]
    by_cases hij : i.1 < r ∨ j.1 < r
    · rw [if_pos hij, hN j i hij.symm]
    · have h1 : r ≤ i.1 ∧ r ≤ j.1 := by omega
      rw [if_neg hij, block_at _ _ (by have := j.2; omega) (by have := i.2; omega), Nat.sub_add_cancel h1.1, Nat.sub_add_cancel h1.2, flat_at]
  rw [e, Matrix.mul_assoc, Matrix.mul_assoc, Matrix.mul_assoc, QQ_right h.Vq, Matrix.mul_one, ← Matrix.mul_assoc, QQ_right h.Uq, Matrix.one_mul]

/-- **C109.** `ObtainNorVerIntr` at a point whose factors have not been decomposed before fails: unlike `ObtainNorVerExtr` it does not compute what is missing. -/
theorem C109_missing {x : Pt} (h : x.U.house = none ∨ x.V.house = none) (junk : Nat → ℝ) (E : Matrix (Fin m) (Fin n) ℝ) : norIntr m n r junk x E = none := by
  unfold norIntr
  rcases h with h | h
  · rw [h]
  · rw [h]
    cases x.U.house with
    | none => rfl
    | some F => cases h1 : hhrMtp false x.U.m x.U.n F .L .T m n E <;> simp [h1]

/-! ## A concrete point -/

/-- Routines that return a trivial decomposition. -/
def exL : Lapack ℝ := ⟨fun _ _ A => ⟨A, fun _ => 0⟩, fun _ _ _ A _ => A, fun _ _ _ => (fun _ => 0, fun _ => 0, fun _ => 0)⟩

/-- The point with both factors `(1, 0)`, not yet decomposed. -/
def exPt : Pt := ⟨Elt.new 2 1 fun p => if p = 0 then 1 else 0, Elt.new 2 1 fun p => if p = 0 then 1 else 0⟩

theorem exQR : IsQR 2 1 (fun p => if p = 0 then (1 : ℝ) else 0) (exL.geqp3 2 1 fun p => if p = 0 then 1 else 0) := by
  constructor
  · intro i _
    simp [reflector, exL]
  · ext i j
    fin_cases i <;> fin_cases j <;> simp [fullQ, reflector, exL, upper, view, List.range_succ]

theorem exOk : Ok exL 2 2 1 exPt := by
  have ho : (view 2 1 2 fun p => if p = 0 then (1 : ℝ) else 0)ᵀ * (view 2 1 2 fun p => if p = 0 then (1 : ℝ) else 0) = 1 := by
    ext i j
    fin_cases i
    fin_cases j
    simp [view, mul_apply]
  exact ⟨rfl, rfl, rfl, rfl, ho, ho, by simp [exPt, Elt.new], by simp [exPt, Elt.new], exQR, exQR⟩

/-- The hypotheses hold at this point; the vector with coordinate 7 is the matrix with 7 in the lower right corner. -/
example (junk : Nat → ℝ) : ∃ x', norExtr exL 2 2 1 junk exPt (fun _ => 7) = some (!![0, 0; 0, 7], x') := by
  refine ⟨⟨hhrDecom exL exPt.U, hhrDecom exL exPt.V⟩, (norExtr_eq exOk _ _).trans ?_⟩
  congr 2
  have h1 : QQ exL 2 1 exPt.U.get = 1 := by simp [fullQ, reflector, exL, List.range_succ]
  have h2 : QQ exL 2 1 exPt.V.get = 1 := by simp [fullQ, reflector, exL, List.range_succ]
  rw [h1, h2, transpose_one, Matrix.one_mul, Matrix.mul_one]
  ext j i
  rw [pad_view]
  fin_cases j <;> fin_cases i <;> simp

/-- Before that call the coordinates of the same vector cannot be read. -/
example (junk : Nat → ℝ) : norIntr 2 2 1 junk exPt !![0, 0; 0, 7] = none := C109_missing (Or.inl rfl) _ _

end Verif.FixedRankNor
