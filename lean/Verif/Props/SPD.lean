import Verif.Manifold.SPD
import Verif.Props.Intrinsic
import Verif.Props.StiefelDiff
import Mathlib.Analysis.Normed.Algebra.MatrixExponential
import Mathlib.Analysis.SpecialFunctions.Exponential
import Mathlib.LinearAlgebra.Matrix.DotProduct
import Mathlib.Algebra.Order.BigOperators.Ring.Finset

/-!
# C38, C39, C40 and the SPD parts of C35, C46, C62, C64, C66
-/

set_option linter.unusedSectionVars false
set_option linter.unusedVariables false

namespace Verif.SPD

open Matrix Verif.Elem Verif.Intr Verif.Mat

variable {n : Nat}

/-- Symmetric positive definite, stated with entries. -/
def Spd (A : Matrix (Fin n) (Fin n) ℝ) : Prop := Aᵀ = A ∧ ∀ v : Fin n → ℝ, v ≠ 0 → 0 < v ⬝ᵥ A *ᵥ v

/-- Specification of the Cholesky factor stored in `x.Field("_L")`. -/
structure IsChol (x L : Matrix (Fin n) (Fin n) ℝ) : Prop where
  det : L.det ≠ 0
  eq : x = L * Lᵀ

/-- Specification of a symmetric eigendecomposition (`syev`). -/
structure IsEig (S V : Matrix (Fin n) (Fin n) ℝ) (lam : Fin n → ℝ) : Prop where
  orth : Vᵀ * V = 1
  eq : S = V * diagonal lam * Vᵀ

theorem IsEig.orth' {S V : Matrix (Fin n) (Fin n) ℝ} {lam : Fin n → ℝ} (h : IsEig S V lam) : V * Vᵀ = 1 := mul_eq_one_comm.mp h.orth

/-! ### Symmetrisation loops -/

theorem symStep_other {b : Nat → ℝ} {q : Nat × Nat} {a : Nat} (h1 : a ≠ q.2 + q.1 * n) (h2 : a ≠ q.1 + q.2 * n) : symStep n b q a = b a := by
  simp only [symStep]
  rw [Function.update_of_ne h2, Function.update_of_ne h1]

theorem symLoop_list (l : List (Nat × Nat)) (hl : ∀ q ∈ l, q.1 < q.2 ∧ q.2 < n) (hnd : l.Nodup) : ∀ (b : Nat → ℝ) {i j : Nat} (hi : i < n) (hj : j < n),
    (l.foldl (symStep n) b) (i + j * n) = if (i, j) ∈ l ∨ (j, i) ∈ l then (b (i + j * n) + b (j + i * n)) / 2 else b (i + j * n) := by
  induction l with
  | nil => intro b i j hi hj; simp
  | cons q l ih =>
    intro b i j hi hj
    have hq := hl q List.mem_cons_self
    rw [List.foldl_cons, ih (fun r hr => hl r (List.mem_cons_of_mem _ hr)) (List.nodup_cons.mp hnd).2 _ hi hj]
    have hnq := (List.nodup_cons.mp hnd).1
    obtain ⟨a, c⟩ := q
    simp only at hq
    by_cases h1 : i = a ∧ j = c
    · obtain ⟨rfl, rfl⟩ := h1
      have h2 : ¬ ((i, j) ∈ l ∨ (j, i) ∈ l) := by
        rintro (h | h)
        · exact hnq h
        · have := hl (j, i) (List.mem_cons_of_mem _ h); simp only at this; omega
      rw [if_neg h2, if_pos (Or.inl List.mem_cons_self)]
      simp only [symStep, Function.update_self]
      ring
    · by_cases h2 : i = c ∧ j = a
      · obtain ⟨rfl, rfl⟩ := h2
        have h2 : ¬ ((i, j) ∈ l ∨ (j, i) ∈ l) := by
          rintro (h | h)
          · have := hl (i, j) (List.mem_cons_of_mem _ h); simp only at this; omega
          · exact hnq h
        rw [if_neg h2, if_pos (Or.inr List.mem_cons_self)]
        simp only [symStep]
        rw [Function.update_of_ne (by intro e; have := colMajor_inj hi hj e; omega), Function.update_self]
        ring
      · have e1 : symStep n b (a, c) (i + j * n) = b (i + j * n) :=
          symStep_other (by intro e; have := colMajor_inj hi hq.2 e; omega) (by intro e; have := colMajor_inj hi (by omega) e; omega)
        have e2 : symStep n b (a, c) (j + i * n) = b (j + i * n) :=
          symStep_other (by intro e; have := colMajor_inj hj hq.2 e; omega) (by intro e; have := colMajor_inj hj (by omega) e; omega)
        rw [e1, e2]
        have e3 : ((i, j) ∈ (a, c) :: l ∨ (j, i) ∈ (a, c) :: l) ↔ ((i, j) ∈ l ∨ (j, i) ∈ l) := by
          simp only [List.mem_cons, Prod.mk.injEq]
          constructor
          · rintro ((h | h) | (h | h))
            · exact absurd h h1
            · exact Or.inl h
            · exact absurd ⟨h.2, h.1⟩ h2
            · exact Or.inr h
          · rintro (h | h)
            · exact Or.inl (Or.inr h)
            · exact Or.inr (Or.inr h)
        simp only [e3]

theorem symInPlace_eq (A : Matrix (Fin n) (Fin n) ℝ) : symInPlace A = Stiefel.sym A := by
  ext ⟨i, hi⟩ ⟨j, hj⟩
  show symLoop n (flat A) (i + j * n) = _
  unfold symLoop
  rw [symLoop_list (pairs n) (fun q hq => mem_pairs.mp hq) (nodup_pairs n) _ hi hj]
  simp only [Stiefel.sym, Matrix.smul_apply, Matrix.add_apply, transpose_apply, smul_eq_mul, flat_apply A hi hj, flat_apply A hj hi]
  split
  · ring
  · rename_i h
    have : i = j := by
      by_contra hne
      rcases Nat.lt_or_gt_of_ne hne with hlt | hlt
      · exact h (Or.inl (mem_pairs.mpr ⟨hlt, hj⟩))
      · exact h (Or.inr (mem_pairs.mpr ⟨hlt, hi⟩))
    subst this
    ring

theorem proj_eq (junk : Nat → ℝ) (η : Matrix (Fin n) (Fin n) ℝ) : proj junk η = Stiefel.sym η := by
  ext ⟨i, hi⟩ ⟨j, hj⟩
  show writeAll junk _ (i + j * n) = _
  have hval : ∀ y, (i + j * n, y) ∈ projWrites n (flat η) → y = Stiefel.sym η ⟨i, hi⟩ ⟨j, hj⟩ := by
    intro y hy
    simp only [projWrites, mem_forN, List.mem_cons, mem_forRange, Prod.mk.injEq, List.not_mem_nil, or_false] at hy
    simp only [Stiefel.sym, Matrix.smul_apply, Matrix.add_apply, transpose_apply, smul_eq_mul]
    obtain ⟨a, ha, (⟨e, rfl⟩ | ⟨c, hc1, hc2, (⟨e, rfl⟩ | ⟨e, rfl⟩)⟩)⟩ := hy
    · obtain ⟨rfl, rfl⟩ := colMajor_inj hi ha e
      rw [flat_apply η hi hj]; ring
    · obtain ⟨rfl, rfl⟩ := colMajor_inj hi ha e
      rw [flat_apply η hi hj, flat_apply η hj hi]; ring
    · obtain ⟨rfl, rfl⟩ := colMajor_inj hi (by omega) e
      rw [flat_apply η hj hi, flat_apply η hi hj]; ring
  refine writeAll_of_mem _ _ _ _ ?_ hval
  have : ∃ y, (i + j * n, y) ∈ projWrites n (flat η) := by
    simp only [projWrites, mem_forN, List.mem_cons, mem_forRange, Prod.mk.injEq, List.not_mem_nil, or_false]
    rcases Nat.lt_trichotomy i j with h | h | h
    · exact ⟨_, i, hi, Or.inr ⟨j, by omega, by omega, Or.inl ⟨rfl, rfl⟩⟩⟩
    · subst h; exact ⟨_, i, hi, Or.inl ⟨rfl, rfl⟩⟩
    · exact ⟨_, j, hj, Or.inr ⟨i, by omega, by omega, Or.inr ⟨rfl, rfl⟩⟩⟩
  obtain ⟨y, hy⟩ := this
  rw [← hval y hy]
  exact hy

theorem sym_of_sym {A : Matrix (Fin n) (Fin n) ℝ} (h : Aᵀ = A) : Stiefel.sym A = A := by
  ext i j
  simp only [Stiefel.sym, h, Matrix.smul_apply, Matrix.add_apply, smul_eq_mul]
  ring

/-- **C35 (SPD projection).** The result is symmetric, symmetric matrices are fixed, and the residual is orthogonal to every symmetric matrix. -/
theorem C35_spd_projection (junk : Nat → ℝ) (η : Matrix (Fin n) (Fin n) ℝ) :
    (proj junk η)ᵀ = proj junk η ∧ (ηᵀ = η → proj junk η = η) ∧ ∀ ζ : Matrix (Fin n) (Fin n) ℝ, ζᵀ = ζ → frob (η - proj junk η) ζ = 0 := by
  rw [proj_eq]
  refine ⟨Stiefel.sym_transpose η, sym_of_sym, fun ζ hζ => ?_⟩
  have hs : (η - Stiefel.sym η)ᵀ = -(η - Stiefel.sym η) := by
    ext i j
    simp only [Stiefel.sym, Matrix.sub_apply, Matrix.smul_apply, Matrix.add_apply, transpose_apply, Matrix.neg_apply, smul_eq_mul]
    ring
  exact frob_skew_sym hζ hs

/-! ### C38 -/

theorem dot_gram (M : Matrix (Fin n) (Fin n) ℝ) (v : Fin n → ℝ) : v ⬝ᵥ (Mᵀ * M) *ᵥ v = (M *ᵥ v) ⬝ᵥ (M *ᵥ v) := by
  rw [← mulVec_mulVec, dotProduct_mulVec, vecMul_transpose]

theorem dot_self_nonneg (v : Fin n → ℝ) : 0 ≤ v ⬝ᵥ v := Finset.sum_nonneg fun i _ => mul_self_nonneg (v i)

theorem dot_self_pos {v : Fin n → ℝ} (h : v ≠ 0) : 0 < v ⬝ᵥ v := by
  refine lt_of_le_of_ne (dot_self_nonneg v) fun e => h ?_
  exact dotProduct_self_eq_zero.mp e.symm

theorem spd_gram {M : Matrix (Fin n) (Fin n) ℝ} (hM : M.det ≠ 0) : Spd (M * Mᵀ) := by
  refine ⟨by rw [transpose_mul, transpose_transpose], fun v hv => ?_⟩
  have e := dot_gram Mᵀ v
  rw [transpose_transpose] at e
  rw [e]
  refine dot_self_pos fun h0 => hv ?_
  have hu : IsUnit Mᵀ.det := by rw [det_transpose]; exact isUnit_iff_ne_zero.mpr hM
  have h1 : (Mᵀ)⁻¹ *ᵥ (Mᵀ *ᵥ v) = v := by rw [mulVec_mulVec, nonsing_inv_mul _ hu, one_mulVec]
  rw [← h1, h0, mulVec_zero]

theorem IsChol.spd {x L : Matrix (Fin n) (Fin n) ℝ} (h : IsChol x L) : Spd x := by
  rw [h.eq]; exact spd_gram h.det

theorem IsChol.left {x L : Matrix (Fin n) (Fin n) ℝ} (h : IsChol x L) : L⁻¹ * L = 1 := nonsing_inv_mul L (isUnit_iff_ne_zero.mpr h.det)
theorem IsChol.right {x L : Matrix (Fin n) (Fin n) ℝ} (h : IsChol x L) : L * L⁻¹ = 1 := mul_nonsing_inv L (isUnit_iff_ne_zero.mpr h.det)
theorem IsChol.leftT {x L : Matrix (Fin n) (Fin n) ℝ} (h : IsChol x L) : Lᵀ * (L⁻¹)ᵀ = 1 := by rw [← transpose_mul, h.left, transpose_one]
theorem IsChol.rightT {x L : Matrix (Fin n) (Fin n) ℝ} (h : IsChol x L) : (L⁻¹)ᵀ * Lᵀ = 1 := by rw [← transpose_mul, h.right, transpose_one]
theorem IsChol.sym {x L : Matrix (Fin n) (Fin n) ℝ} (h : IsChol x L) : xᵀ = x := h.spd.1

theorem IsChol.inv {x L : Matrix (Fin n) (Fin n) ℝ} (h : IsChol x L) : x⁻¹ = (L⁻¹)ᵀ * L⁻¹ := by
  rw [h.eq, Matrix.mul_inv_rev, transpose_nonsing_inv]

theorem IsChol.mul_inv {x L : Matrix (Fin n) (Fin n) ℝ} (h : IsChol x L) : x * x⁻¹ = 1 := by
  rw [h.inv, h.eq]
  calc L * Lᵀ * ((L⁻¹)ᵀ * L⁻¹) = L * (Lᵀ * (L⁻¹)ᵀ) * L⁻¹ := by simp only [Matrix.mul_assoc]
    _ = 1 := by rw [h.leftT, Matrix.mul_one, h.right]

theorem IsChol.inv_mul {x L : Matrix (Fin n) (Fin n) ℝ} (h : IsChol x L) : x⁻¹ * x = 1 := mul_eq_one_comm.mp h.mul_inv

/-- **C38 (second-order retraction).** For every positive definite `x` and every symmetric `η` the result is symmetric positive definite, equals
`x + η + ½ η x⁻¹ η`, and is `x` when `η = 0`. -/
theorem C38_second_order {x L : Matrix (Fin n) (Fin n) ℝ} (h : IsChol x L) {η : Matrix (Fin n) (Fin n) ℝ} (hη : ηᵀ = η) :
    Spd (secOrd L x η) ∧ secOrd L x η = x + η + (1 / 2 : ℝ) • (η * x⁻¹ * η) ∧ secOrd L x 0 = x := by
  have e2 : secOrd L x η = x + η + (1 / 2 : ℝ) • (η * x⁻¹ * η) := by
    have : (L⁻¹ * η)ᵀ * (L⁻¹ * η) = η * x⁻¹ * η := by rw [transpose_mul, hη, h.inv]; simp only [Matrix.mul_assoc]
    simp only [secOrd]
    rw [this]
    abel
  refine ⟨⟨?_, fun v hv => ?_⟩, e2, ?_⟩
  · rw [e2]
    simp only [transpose_add, transpose_smul, transpose_mul, hη, h.sym, transpose_nonsing_inv, Matrix.mul_assoc]
  · have e3 : secOrd L x η = (1 / 2 : ℝ) • (x + (Lᵀ + L⁻¹ * η)ᵀ * (Lᵀ + L⁻¹ * η)) := by
      have a1 : L * (L⁻¹ * η) = η := by rw [← Matrix.mul_assoc, h.right, Matrix.one_mul]
      have a2 : η * (L⁻¹)ᵀ * Lᵀ = η := by rw [Matrix.mul_assoc, h.rightT, Matrix.mul_one]
      have : (Lᵀ + L⁻¹ * η)ᵀ * (Lᵀ + L⁻¹ * η) = x + η + η + (L⁻¹ * η)ᵀ * (L⁻¹ * η) := by
        rw [transpose_add, transpose_transpose, Matrix.add_mul, Matrix.mul_add, Matrix.mul_add, a1, ← h.eq]
        have a3 : (L⁻¹ * η)ᵀ * Lᵀ = η := by rw [transpose_mul, hη, a2]
        rw [a3]
        abel
      rw [this]
      ext i j
      simp only [secOrd, Matrix.add_apply, Matrix.smul_apply, smul_eq_mul]
      ring
    rw [e3, smul_mulVec, dotProduct_smul, add_mulVec, dotProduct_add, dot_gram]
    have := h.spd.2 v hv
    have h2 := dot_self_nonneg ((Lᵀ + L⁻¹ * η) *ᵥ v)
    simp only [smul_eq_mul]
    linarith
  · simp only [secOrd, Matrix.mul_zero, smul_zero, zero_add]

/-- **C38 (intrinsic approach).** Every coordinate vector is retracted to a positive definite matrix. -/
theorem C38_second_order_intrinsic {x L : Matrix (Fin n) (Fin n) ℝ} (h : IsChol x L) (junk : Nat → ℝ) (c : List ℝ) (hc : c.length = n * (n + 1) / 2) :
    Spd (secOrd L x (spdExtrAF junk L c)) ∧ Spd (secOrd L x (spdExtrEuc junk c)) :=
  ⟨(C38_second_order h ((C37_spd_af h.det h.eq junk).2.1 c hc).2).1, (C38_second_order h ((C37_spd_euc junk).2.1 c hc).2).1⟩

/-- The matrix returned by `ExpSym` is the matrix exponential, whichever eigendecomposition LAPACK returns. -/
theorem expSym_eq {S V : Matrix (Fin n) (Fin n) ℝ} {lam : Fin n → ℝ} (h : IsEig S V lam) : expSym V lam = NormedSpace.exp S := by
  have hu : IsUnit V := ⟨⟨V, Vᵀ, h.orth', h.orth⟩, rfl⟩
  have hinv : V⁻¹ = Vᵀ := inv_eq_left_inv h.orth
  rw [h.eq, ← hinv, Matrix.exp_conj V _ hu, Matrix.exp_diagonal, hinv, expSym]
  congr 3
  funext i
  rw [Pi.coe_exp, Real.exp_eq_exp_ℝ]

theorem expSym_transpose (V : Matrix (Fin n) (Fin n) ℝ) (lam : Fin n → ℝ) : (expSym V lam)ᵀ = expSym V lam := by
  simp only [expSym, transpose_mul, transpose_transpose, diagonal_transpose, Matrix.mul_assoc]

theorem whitened_eq {x L η : Matrix (Fin n) (Fin n) ℝ} (h : IsChol x L) (hη : ηᵀ = η) : whitened L η = L⁻¹ * η * (L⁻¹)ᵀ := by
  unfold whitened
  rw [transpose_mul, hη, Matrix.mul_assoc]

/-- The exponential of a symmetric matrix is a Gram matrix of the exponential of its half. -/
theorem expSym_half {S V W : Matrix (Fin n) (Fin n) ℝ} {lam mu : Fin n → ℝ} (h : IsEig S V lam) (hW : IsEig ((1 / 2 : ℝ) • S) W mu) :
    expSym W mu * expSym W mu = expSym V lam := by
  rw [expSym_eq h, expSym_eq hW, ← Matrix.exp_add_of_commute _ _ (Commute.refl _), ← add_smul]
  norm_num

theorem expSym_sq (V : Matrix (Fin n) (Fin n) ℝ) (hV : Vᵀ * V = 1) (lam : Fin n → ℝ) :
    expSym V lam = expSym V (fun i => lam i / 2) * (expSym V (fun i => lam i / 2))ᵀ := by
  rw [expSym_transpose]
  have : expSym V (fun i => lam i / 2) * expSym V (fun i => lam i / 2) =
      V * (diagonal (fun i => Real.exp (lam i / 2)) * (Vᵀ * V) * diagonal (fun i => Real.exp (lam i / 2))) * Vᵀ := by
    simp only [expSym, Matrix.mul_assoc]
  rw [this, hV, Matrix.mul_one, diagonal_mul_diagonal]
  unfold expSym
  congr 3
  funext i
  rw [← Real.exp_add]
  congr 1
  ring

theorem det_expSym {V : Matrix (Fin n) (Fin n) ℝ} (hV : Vᵀ * V = 1) (lam : Fin n → ℝ) : (expSym V lam).det ≠ 0 := by
  unfold expSym
  rw [det_mul, det_mul, det_diagonal]
  have hd : V.det * V.det = 1 := by
    have := congrArg Matrix.det hV
    rwa [det_mul, det_transpose, det_one] at this
  have h1 : V.det ≠ 0 := by intro e; rw [e] at hd; simp at hd
  rw [det_transpose]
  exact mul_ne_zero (mul_ne_zero h1 (Finset.prod_ne_zero_iff.mpr fun i _ => (Real.exp_pos _).ne')) h1

theorem expRetr_eq (L V : Matrix (Fin n) (Fin n) ℝ) (lam : Fin n → ℝ) : expRetr L V lam = L * expSym V lam * Lᵀ := by
  unfold expRetr
  rw [symInPlace_eq]
  refine sym_of_sym ?_
  simp only [transpose_mul, transpose_transpose, expSym_transpose, Matrix.mul_assoc]

/-- **C38 (exponential retraction).** Symmetric positive definite for every symmetric `η`, equal to `L exp(L⁻¹ η L⁻ᵀ) Lᵀ` for the matrix exponential whatever
eigendecomposition is used, and `x` when `η = 0`. -/
theorem C38_exponential {x L : Matrix (Fin n) (Fin n) ℝ} (h : IsChol x L) {η V : Matrix (Fin n) (Fin n) ℝ} {lam : Fin n → ℝ} (hη : ηᵀ = η)
    (hE : IsEig (whitened L η) V lam) :
    Spd (expRetr L V lam) ∧ expRetr L V lam = L * NormedSpace.exp (L⁻¹ * η * (L⁻¹)ᵀ) * Lᵀ ∧ (η = 0 → expRetr L V lam = x) := by
  rw [expRetr_eq]
  refine ⟨?_, ?_, ?_⟩
  · have : L * expSym V lam * Lᵀ = (L * expSym V (fun i => lam i / 2)) * (L * expSym V (fun i => lam i / 2))ᵀ := by
      rw [transpose_mul, expSym_sq V hE.orth lam]
      simp only [Matrix.mul_assoc]
    rw [this]
    refine spd_gram ?_
    rw [det_mul]
    exact mul_ne_zero h.det (det_expSym hE.orth _)
  · rw [expSym_eq hE, whitened_eq h hη]
  · rintro rfl
    rw [expSym_eq hE]
    simp only [whitened, Matrix.mul_zero, transpose_zero, NormedSpace.exp_zero, Matrix.mul_one]
    exact h.eq.symm

/-! ### C39 -/

/-- The square of the value returned by `DistAF` is the trace of `(x₁⁻¹ x₂)²`. -/
theorem distAF_sq {x1 x2 L1 L2 V : Matrix (Fin n) (Fin n) ℝ} {lam : Fin n → ℝ} (h1 : IsChol x1 L1) (h2 : IsChol x2 L2) (hE : IsEig (distArg L1 L2) V lam) :
    distAF lam ^ 2 = trace (x1⁻¹ * x2 * (x1⁻¹ * x2)) := by
  unfold distAF
  rw [Real.sq_sqrt (Finset.sum_nonneg fun i _ => mul_self_nonneg _)]
  have e1 : ∑ i, lam i * lam i = trace (distArg L1 L2 * distArg L1 L2) := by
    rw [hE.eq]
    have : V * diagonal lam * Vᵀ * (V * diagonal lam * Vᵀ) = V * (diagonal lam * (Vᵀ * V) * diagonal lam) * Vᵀ := by simp only [Matrix.mul_assoc]
    rw [this, hE.orth, Matrix.mul_one, trace_mul_comm, ← Matrix.mul_assoc, hE.orth, Matrix.one_mul, diagonal_mul_diagonal, trace_diagonal]
  have e2 : distArg L1 L2 = L1⁻¹ * x2 * (L1⁻¹)ᵀ := by
    unfold distArg
    rw [transpose_mul, h2.eq]
    simp only [Matrix.mul_assoc]
  rw [e1, e2, h1.inv]
  have e3 : L1⁻¹ * x2 * (L1⁻¹)ᵀ * (L1⁻¹ * x2 * (L1⁻¹)ᵀ) = L1⁻¹ * x2 * (L1⁻¹)ᵀ * L1⁻¹ * x2 * (L1⁻¹)ᵀ := by simp only [Matrix.mul_assoc]
  have e4 : (L1⁻¹)ᵀ * L1⁻¹ * x2 * ((L1⁻¹)ᵀ * L1⁻¹ * x2) = (L1⁻¹)ᵀ * (L1⁻¹ * x2 * (L1⁻¹)ᵀ * L1⁻¹ * x2) := by simp only [Matrix.mul_assoc]
  rw [e3, e4, trace_mul_comm]

/-- **C39 fails (a point is not at distance zero from itself).** `Dist(x, x) = √n` for every positive definite `x`, whatever eigendecomposition is used: the logarithm of
the eigenvalues in the formula of the code's own comment is missing. -/
theorem C39_self_distance {x L V : Matrix (Fin n) (Fin n) ℝ} {lam : Fin n → ℝ} (h : IsChol x L) (hE : IsEig (distArg L L) V lam) : distAF lam = Real.sqrt n := by
  have h1 := distAF_sq h h hE
  rw [h.inv_mul, Matrix.one_mul, trace_one, Fintype.card_fin] at h1
  rw [← h1]
  exact (Real.sqrt_sq (Real.sqrt_nonneg _)).symm

theorem isChol_smul_one (c : ℝ) (hc : 0 < c) : IsChol ((c * c) • (1 : Matrix (Fin n) (Fin n) ℝ)) (c • 1) := by
  refine ⟨?_, ?_⟩
  · rw [det_smul, det_one, mul_one]
    exact pow_ne_zero _ hc.ne'
  · rw [transpose_smul, transpose_one, Matrix.smul_mul, Matrix.one_mul, smul_smul]

/-- **C39 fails (not symmetric).** For every size `n ≥ 1` there are points with `Dist(x₁, x₂) ≠ Dist(x₂, x₁)`: the identity and four times the identity are at distance
`4 √n` one way and `√n / 4` the other. -/
theorem C39_not_symmetric (hn : 0 < n) {V W : Matrix (Fin n) (Fin n) ℝ} {lam mu : Fin n → ℝ} (h1 : IsEig (distArg (1 : Matrix (Fin n) (Fin n) ℝ) ((2 : ℝ) • 1)) V lam)
    (h2 : IsEig (distArg ((2 : ℝ) • (1 : Matrix (Fin n) (Fin n) ℝ)) 1) W mu) : distAF mu < distAF lam := by
  have c1 : IsChol (1 : Matrix (Fin n) (Fin n) ℝ) 1 := ⟨by simp, by simp⟩
  have c2 : IsChol (((2 : ℝ) * 2) • (1 : Matrix (Fin n) (Fin n) ℝ)) ((2 : ℝ) • 1) := isChol_smul_one 2 (by norm_num)
  have hn' : (0 : ℝ) < n := by exact_mod_cast hn
  have i2 : (((2 : ℝ) * 2) • (1 : Matrix (Fin n) (Fin n) ℝ))⁻¹ = (1 / 4 : ℝ) • 1 := by
    refine inv_eq_left_inv ?_
    rw [Matrix.smul_mul, Matrix.mul_smul, smul_smul, Matrix.one_mul]
    norm_num
  have d1 : distAF lam ^ 2 = 16 * n := by
    rw [distAF_sq c1 c2 h1, inv_one, Matrix.one_mul, Matrix.smul_mul, Matrix.mul_smul, Matrix.one_mul, smul_smul, trace_smul, trace_one, Fintype.card_fin]
    simp only [smul_eq_mul]; norm_num
  have d2 : distAF mu ^ 2 = 1 / 16 * n := by
    rw [distAF_sq c2 c1 h2, i2, Matrix.mul_one, Matrix.smul_mul, Matrix.mul_smul, Matrix.one_mul, smul_smul, trace_smul, trace_one, Fintype.card_fin]
    simp only [smul_eq_mul]; norm_num
  have := Real.sqrt_nonneg (∑ i, lam i * lam i)
  refine lt_of_pow_lt_pow_left₀ 2 this ?_
  rw [d1, d2]
  linarith

/-- **C39 (what remains true).** `DistAF` does not depend on the eigendecomposition and is invariant under congruence `x ↦ C x Cᵀ`; with the Euclidean metric
`Dist` is a metric. The full statement, `DistAF(x, x) = 0` and symmetry, is false: `C39_self_distance`, `C39_not_symmetric`. -/
theorem C39_congruence_invariant_partial {x1 x2 L1 L2 V C M1 M2 W : Matrix (Fin n) (Fin n) ℝ} {lam mu : Fin n → ℝ} (h1 : IsChol x1 L1) (h2 : IsChol x2 L2)
    (hE : IsEig (distArg L1 L2) V lam) (hC : C.det ≠ 0) (g1 : IsChol (C * x1 * Cᵀ) M1) (g2 : IsChol (C * x2 * Cᵀ) M2) (gE : IsEig (distArg M1 M2) W mu) :
    distAF mu = distAF lam := by
  have hc1 : C⁻¹ * C = 1 := nonsing_inv_mul C (isUnit_iff_ne_zero.mpr hC)
  have hc2 : Cᵀ * (Cᵀ)⁻¹ = 1 := mul_nonsing_inv Cᵀ (by rw [det_transpose]; exact isUnit_iff_ne_zero.mpr hC)
  have e : (C * x1 * Cᵀ)⁻¹ * (C * x2 * Cᵀ) = (Cᵀ)⁻¹ * (x1⁻¹ * x2) * Cᵀ := by
    rw [Matrix.mul_inv_rev, Matrix.mul_inv_rev]
    calc (Cᵀ)⁻¹ * (x1⁻¹ * C⁻¹) * (C * x2 * Cᵀ) = (Cᵀ)⁻¹ * x1⁻¹ * (C⁻¹ * C) * x2 * Cᵀ := by simp only [Matrix.mul_assoc]
      _ = _ := by rw [hc1, Matrix.mul_one]; simp only [Matrix.mul_assoc]
  have hsq : distAF mu ^ 2 = distAF lam ^ 2 := by
    rw [distAF_sq g1 g2 gE, distAF_sq h1 h2 hE, e]
    have : (Cᵀ)⁻¹ * (x1⁻¹ * x2) * Cᵀ * ((Cᵀ)⁻¹ * (x1⁻¹ * x2) * Cᵀ) = (Cᵀ)⁻¹ * ((x1⁻¹ * x2) * (Cᵀ * (Cᵀ)⁻¹) * (x1⁻¹ * x2) * Cᵀ) := by simp only [Matrix.mul_assoc]
    rw [this, hc2, Matrix.mul_one, trace_mul_comm, Matrix.mul_assoc, hc2, Matrix.mul_one]
  exact (pow_left_inj₀ (Real.sqrt_nonneg _) (Real.sqrt_nonneg _) (by norm_num : (2 : Nat) ≠ 0)).mp hsq

/-- Cauchy-Schwarz for the Frobenius product. -/
theorem frob_cauchy (A B : Matrix (Fin n) (Fin n) ℝ) : frob A B * frob A B ≤ frob A A * frob B B := by
  have h := Finset.sum_mul_sq_le_sq_mul_sq (Finset.univ : Finset (Fin n × Fin n)) (fun q => A q.1 q.2) (fun q => B q.1 q.2)
  simp only [Fintype.sum_prod_type] at h
  simp only [frob]
  calc _ = (∑ i, ∑ j, A i j * B i j) ^ 2 := by ring
    _ ≤ _ := h
    _ = _ := by simp only [pow_two]

/-- **C39 (Euclidean metric).** `DistEuc` is zero exactly on equal points, symmetric, and satisfies the triangle inequality. -/
theorem C39_euclidean (x y z : Matrix (Fin n) (Fin n) ℝ) :
    (distEuc x y = 0 ↔ x = y) ∧ distEuc x y = distEuc y x ∧ distEuc x z ≤ distEuc x y + distEuc y z := by
  refine ⟨?_, ?_, ?_⟩
  · unfold distEuc
    rw [Real.sqrt_eq_zero (frob_self_nonneg _), frob_self_eq_zero, sub_eq_zero]
  · unfold distEuc
    rw [show y - x = -(x - y) by abel, frob_neg_left, frob_neg_right, neg_neg]
  · unfold distEuc
    set A := x - y
    set B := y - z
    have e : x - z = A + B := by simp only [A, B]; abel
    rw [e]
    refine Real.sqrt_le_iff.mpr ⟨add_nonneg (Real.sqrt_nonneg _) (Real.sqrt_nonneg _), ?_⟩
    have ha := Real.sq_sqrt (frob_self_nonneg A)
    have hb := Real.sq_sqrt (frob_self_nonneg B)
    have hab : frob A B ≤ Real.sqrt (frob A A) * Real.sqrt (frob B B) := by
      rw [← Real.sqrt_mul (frob_self_nonneg A)]
      refine Real.le_sqrt_of_sq_le ?_
      rw [pow_two]; exact frob_cauchy A B
    have ex : frob (A + B) (A + B) = frob A A + 2 * frob A B + frob B B := by
      rw [frob_add_left, frob_add_right, frob_add_right, frob_comm B A]; ring
    rw [ex]
    nlinarith

/-! ### C40 -/

/-- **C40 fails.** Parallel translation returns the zero matrix for every point, direction and vector, because the first product is formed with the factor `0`. -/
theorem C40_returns_zero (L η V ξ r0 : Matrix (Fin n) (Fin n) ℝ) (lam : Fin n → ℝ) : parTran L η V lam ξ r0 = 0 := by
  simp only [parTran, gemm, zero_smul, Matrix.zero_mul, smul_zero, add_zero]

theorem metricAF_eq {x L : Matrix (Fin n) (Fin n) ℝ} (h : IsChol x L) (η ξ : Matrix (Fin n) (Fin n) ℝ) :
    metricAF x η ξ = frob (L⁻¹ * η * (L⁻¹)ᵀ) (L⁻¹ * ξ * (L⁻¹)ᵀ) := by
  unfold metricAF
  rw [h.inv, frob_eq_trace, frob_eq_trace]
  simp only [transpose_mul, transpose_transpose, Matrix.mul_assoc]
  rw [trace_mul_comm]
  simp only [Matrix.mul_assoc]

/-- The affine invariant metric is positive definite. -/
theorem metricAF_pos {x L : Matrix (Fin n) (Fin n) ℝ} (h : IsChol x L) {ξ : Matrix (Fin n) (Fin n) ℝ} (hξ : ξ ≠ 0) : 0 < metricAF x ξ ξ := by
  rw [metricAF_eq h]
  refine lt_of_le_of_ne (frob_self_nonneg _) fun e => hξ ?_
  have h0 := frob_self_eq_zero.mp e.symm
  calc ξ = (L * L⁻¹) * ξ * ((L⁻¹)ᵀ * Lᵀ) := by rw [h.right, h.rightT, Matrix.one_mul, Matrix.mul_one]
    _ = L * (L⁻¹ * ξ * (L⁻¹)ᵀ) * Lᵀ := by simp only [Matrix.mul_assoc]
    _ = 0 := by rw [h0, Matrix.mul_zero, Matrix.zero_mul]

/-- **C40 fails (norm not preserved).** No nonzero tangent vector keeps its length, wherever it is transported to. -/
theorem C40_not_isometric {x y L η V ξ r0 : Matrix (Fin n) (Fin n) ℝ} {lam : Fin n → ℝ} (h : IsChol x L) (hξ : ξ ≠ 0) :
    metricAF y (parTran L η V lam ξ r0) (parTran L η V lam ξ r0) < metricAF x ξ ξ := by
  rw [C40_returns_zero, metricAF, Matrix.mul_zero, Matrix.zero_mul, frob_zero_left]
  exact metricAF_pos h hξ

theorem ptFactor_eq {x L V : Matrix (Fin n) (Fin n) ℝ} {lam : Fin n → ℝ} (h : IsChol x L) : ptFactor L V lam = L * expSym V lam * L⁻¹ := by
  unfold ptFactor
  rw [transpose_mul, expSym_transpose, transpose_nonsing_inv, transpose_transpose, Matrix.mul_assoc]

/-- **C40 (what the computed factor would give).** The matrix `T` the code computes satisfies `T x Tᵀ = Exp_x(η)`, and `ξ ↦ T ξ Tᵀ`, the formula of the code's comment,
maps symmetric matrices to symmetric matrices and preserves the affine invariant inner product. The code does not return this value (`C40_returns_zero`); the
full statement of C40 is false. -/
theorem C40_comment_formula_partial {x L η V W : Matrix (Fin n) (Fin n) ℝ} {lam mu : Fin n → ℝ} (h : IsChol x L) (hη : ηᵀ = η) (hE : IsEig (whitened L η) V lam)
    (hW : IsEig ((1 / 2 : ℝ) • whitened L η) W mu) :
    ptFactor L W mu * x * (ptFactor L W mu)ᵀ = expRetr L V lam ∧
    (∀ ξ : Matrix (Fin n) (Fin n) ℝ, ξᵀ = ξ → (ptFactor L W mu * ξ * (ptFactor L W mu)ᵀ)ᵀ = ptFactor L W mu * ξ * (ptFactor L W mu)ᵀ) ∧
    ∀ ξ ζ : Matrix (Fin n) (Fin n) ℝ, metricAF (expRetr L V lam) (ptFactor L W mu * ξ * (ptFactor L W mu)ᵀ) (ptFactor L W mu * ζ * (ptFactor L W mu)ᵀ) = metricAF x ξ ζ := by
  set T := ptFactor L W mu with hT
  have hTe : T = L * expSym W mu * L⁻¹ := ptFactor_eq h
  have h1 : T * x * Tᵀ = expRetr L V lam := by
    rw [expRetr_eq, hTe, ← expSym_half hE hW, h.eq]
    simp only [transpose_mul, expSym_transpose]
    calc L * expSym W mu * L⁻¹ * (L * Lᵀ) * ((L⁻¹)ᵀ * (expSym W mu * Lᵀ)) = L * expSym W mu * (L⁻¹ * L) * (Lᵀ * (L⁻¹)ᵀ) * (expSym W mu * Lᵀ) := by
          simp only [Matrix.mul_assoc]
      _ = _ := by rw [h.left, h.leftT, Matrix.mul_one, Matrix.mul_one]; simp only [Matrix.mul_assoc]
  refine ⟨h1, fun ξ hξ => by simp only [transpose_mul, transpose_transpose, hξ, Matrix.mul_assoc], fun ξ ζ => ?_⟩
  have hTd : T.det ≠ 0 := by
    rw [hTe, det_mul, det_mul]
    refine mul_ne_zero (mul_ne_zero h.det (det_expSym hW.orth _)) ?_
    have := congrArg Matrix.det h.left
    rw [det_mul, det_one] at this
    intro e; rw [e] at this; simp at this
  have hy : IsChol (expRetr L V lam) (T * L) := by
    refine ⟨by rw [det_mul]; exact mul_ne_zero hTd h.det, ?_⟩
    rw [← h1, h.eq, transpose_mul]
    simp only [Matrix.mul_assoc]
  rw [metricAF_eq hy, metricAF_eq h]
  have hTi : T⁻¹ * T = 1 := nonsing_inv_mul T (isUnit_iff_ne_zero.mpr hTd)
  have hTi' : Tᵀ * (T⁻¹)ᵀ = 1 := by rw [← transpose_mul, hTi, transpose_one]
  have key : ∀ ζ : Matrix (Fin n) (Fin n) ℝ, (T * L)⁻¹ * (T * ζ * Tᵀ) * ((T * L)⁻¹)ᵀ = L⁻¹ * ζ * (L⁻¹)ᵀ := by
    intro ζ
    rw [Matrix.mul_inv_rev, transpose_mul]
    calc L⁻¹ * T⁻¹ * (T * ζ * Tᵀ) * ((T⁻¹)ᵀ * (L⁻¹)ᵀ) = L⁻¹ * (T⁻¹ * T) * ζ * (Tᵀ * (T⁻¹)ᵀ) * (L⁻¹)ᵀ := by simp only [Matrix.mul_assoc]
      _ = _ := by rw [hTi, hTi', Matrix.mul_one, Matrix.mul_one]
  rw [key, key]

/-! ### C46: transport by parallelisation -/

theorem paraTransport_eq {x Lx Ly ξ : Matrix (Fin n) (Fin n) ℝ} (h : IsChol x Lx) (hξ : ξᵀ = ξ) (junk : Nat → ℝ) :
    paraTransport junk Lx Ly ξ = Ly * (Lx⁻¹ * ξ * (Lx⁻¹)ᵀ) * Lyᵀ := by
  unfold paraTransport spdExtrAF spdIntrAF
  have e : Lx⁻¹ * (Lx⁻¹ * ξ)ᵀ = Lx⁻¹ * ξ * (Lx⁻¹)ᵀ := by rw [transpose_mul, hξ, Matrix.mul_assoc]
  rw [e, sym_extr_intr junk]
  simp only [transpose_mul, transpose_transpose, hξ, Matrix.mul_assoc]

/-- **C46 (SPD).** Transport by parallelisation gives symmetric matrices, preserves the affine invariant inner product, and transporting from `y` back to `x` undoes it.
(With the intrinsic approach all of these are the identity on coordinates.) -/
theorem C46_spd_parallelisation {x y Lx Ly : Matrix (Fin n) (Fin n) ℝ} (hx : IsChol x Lx) (hy : IsChol y Ly) (junk junk' : Nat → ℝ) {ξ ζ : Matrix (Fin n) (Fin n) ℝ}
    (hξ : ξᵀ = ξ) (hζ : ζᵀ = ζ) :
    (paraTransport junk Lx Ly ξ)ᵀ = paraTransport junk Lx Ly ξ ∧
    metricAF y (paraTransport junk Lx Ly ξ) (paraTransport junk Lx Ly ζ) = metricAF x ξ ζ ∧
    paraTransport junk' Ly Lx (paraTransport junk Lx Ly ξ) = ξ := by
  have hs : (paraTransport junk Lx Ly ξ)ᵀ = paraTransport junk Lx Ly ξ := by
    rw [paraTransport_eq hx hξ]
    simp only [transpose_mul, transpose_transpose, hξ, Matrix.mul_assoc]
  have key : ∀ S : Matrix (Fin n) (Fin n) ℝ, Ly⁻¹ * (Ly * S * Lyᵀ) * (Ly⁻¹)ᵀ = S := by
    intro S
    calc Ly⁻¹ * (Ly * S * Lyᵀ) * (Ly⁻¹)ᵀ = (Ly⁻¹ * Ly) * S * (Lyᵀ * (Ly⁻¹)ᵀ) := by simp only [Matrix.mul_assoc]
      _ = S := by rw [hy.left, hy.leftT, Matrix.one_mul, Matrix.mul_one]
  refine ⟨hs, ?_, ?_⟩
  · rw [metricAF_eq hy, metricAF_eq hx, paraTransport_eq hx hξ, paraTransport_eq hx hζ, key, key]
  · rw [paraTransport_eq hy hs, paraTransport_eq hx hξ, key]
    calc Lx * (Lx⁻¹ * ξ * (Lx⁻¹)ᵀ) * Lxᵀ = (Lx * Lx⁻¹) * ξ * ((Lx⁻¹)ᵀ * Lxᵀ) := by simp only [Matrix.mul_assoc]
      _ = ξ := by rw [hx.right, hx.rightT, Matrix.one_mul, Matrix.mul_one]

/-- **C46 fails (SPD, parameter sets 3 and 4).** There the transport is `ParallelTranslation` and its inverse the inherited projection: transporting and transporting
back gives zero. -/
theorem C46_spd_paratran_not_inverted (junk : Nat → ℝ) (L η V ξ r0 : Matrix (Fin n) (Fin n) ℝ) (lam : Fin n → ℝ) (hξ : ξ ≠ 0) :
    proj junk (parTran L η V lam ξ r0) ≠ ξ := by
  rw [C40_returns_zero, (C35_spd_projection junk 0).2.1 transpose_zero]
  exact fun e => hξ e.symm

/-! ### C62, C64, C66 -/

/-- **C62 (SPD).** The differentiated second-order retraction is the derivative of the second-order retraction. -/
theorem C62_spd_second_order {x L : Matrix (Fin n) (Fin n) ℝ} (h : IsChol x L) {η ξ : Matrix (Fin n) (Fin n) ℝ} (hη : ηᵀ = η) (hξ : ξᵀ = ξ) (i j : Fin n) :
    HasDerivAt (fun t : ℝ => secOrd L x (η + t • ξ) i j) (diffSecOrd L η ξ i j) 0 := by
  set A := L⁻¹ * η with hA
  set B := L⁻¹ * ξ with hB
  have e : ∀ t : ℝ, secOrd L x (η + t • ξ) i j = (1 / 2) * (Aᵀ * A) i j + η i j + x i j + t * ((1 / 2) * ((Aᵀ * B) i j + (Bᵀ * A) i j) + ξ i j) + t * t * ((1 / 2) * (Bᵀ * B) i j) := by
    intro t
    simp only [secOrd]
    have e1 : L⁻¹ * (η + t • ξ) = A + t • B := by rw [Matrix.mul_add, Matrix.mul_smul]
    rw [e1, transpose_add, transpose_smul, Matrix.add_mul, Matrix.mul_add, Matrix.mul_add]
    simp only [Matrix.add_apply, Matrix.smul_apply, Matrix.mul_smul, Matrix.smul_mul, smul_eq_mul]
    ring
  have hd : diffSecOrd L η ξ i j = (1 / 2) * ((Aᵀ * B) i j + (Bᵀ * A) i j) + ξ i j := by
    simp only [diffSecOrd]
    rw [symInPlace_eq]
    simp only [Stiefel.sym, Matrix.add_apply, Matrix.smul_apply, smul_eq_mul, ← hA, ← hB, transpose_mul, transpose_transpose]
  rw [hd]
  simp only [e]
  have h1 : HasDerivAt (fun t : ℝ => t) 1 0 := hasDerivAt_id 0
  have h2 := ((h1.mul_const ((1 / 2) * ((Aᵀ * B) i j + (Bᵀ * A) i j) + ξ i j)).const_add ((1 / 2) * (Aᵀ * A) i j + η i j + x i j)).add ((h1.mul h1).mul_const ((1 / 2) * (Bᵀ * B) i j))
  refine h2.congr_deriv ?_
  ring

/-- The differentiated retraction returns a symmetric matrix. -/
theorem C62_spd_tangent {L η ξ : Matrix (Fin n) (Fin n) ℝ} (hξ : ξᵀ = ξ) : (diffSecOrd L η ξ)ᵀ = diffSecOrd L η ξ := by
  simp only [diffSecOrd]
  rw [symInPlace_eq, transpose_add, Stiefel.sym_transpose, hξ]

/-- **C66 (SPD, affine invariant metric).** For every Euclidean gradient the returned matrix has metric product `⟨g, ξ⟩` with every `ξ`; it is tangent (symmetric) exactly
when the Euclidean gradient is symmetric. -/
theorem C66_spd_gradient_partial {x L : Matrix (Fin n) (Fin n) ℝ} (h : IsChol x L) (g : Matrix (Fin n) (Fin n) ℝ) :
    (∀ ξ, metricAF x (gradAF x g) ξ = frob g ξ) ∧ ((gradAF x g)ᵀ = gradAF x g ↔ gᵀ = g) := by
  have e : ∀ g : Matrix (Fin n) (Fin n) ℝ, x⁻¹ * gradAF x g * x⁻¹ = g := by
    intro g
    unfold gradAF
    rw [h.sym]
    calc x⁻¹ * (x * g * x) * x⁻¹ = (x⁻¹ * x) * g * (x * x⁻¹) := by simp only [Matrix.mul_assoc]
      _ = g := by rw [h.inv_mul, h.mul_inv, Matrix.one_mul, Matrix.mul_one]
  refine ⟨fun ξ => by rw [metricAF, e], ?_, ?_⟩
  · intro hs
    have ht : (gradAF x g)ᵀ = gradAF x gᵀ := by
      unfold gradAF
      simp only [transpose_mul, h.sym, Matrix.mul_assoc]
    have := e gᵀ
    rw [← ht, hs, e g] at this
    exact this.symm
  · intro hg
    unfold gradAF
    simp only [transpose_mul, h.sym, hg, Matrix.mul_assoc]

/-- **C66 fails (SPD, non-symmetric Euclidean gradients).** With the intrinsic approach only the lower triangle is read: for this Euclidean gradient the coordinates of the
returned gradient are all zero although the directional derivative along the symmetric `ξ` is `1`. -/
theorem C66_spd_nonsymmetric_gradient_lost : ∃ g ξ : Matrix (Fin 2) (Fin 2) ℝ, ξᵀ = ξ ∧ frob g ξ = 1 ∧
    spdIntrAF 1 (gradAF 1 g) = [0, 0, 0] := by
  refine ⟨!![0, 0; 1, 0], !![0, 1; 1, 0], ?_, ?_, ?_⟩
  · ext i j; fin_cases i <;> fin_cases j <;> simp
  · simp [frob, Fin.sum_univ_two]
  · have hp : pairs 2 = [(0, 1)] := by decide
    have hr : List.range 2 = [0, 1] := by decide
    simp only [spdIntrAF, symIntr, hp, hr, gradAF, inv_one, Matrix.one_mul, transpose_one, Matrix.mul_one, List.map_cons, List.map_nil, List.cons_append, List.nil_append]
    have f00 := flat_apply (!![0, 0; 1, 0]ᵀ : Matrix (Fin 2) (Fin 2) ℝ) (i := 0) (j := 0) (by norm_num) (by norm_num)
    have f11 := flat_apply (!![0, 0; 1, 0]ᵀ : Matrix (Fin 2) (Fin 2) ℝ) (i := 1) (j := 1) (by norm_num) (by norm_num)
    have f10 := flat_apply (!![0, 0; 1, 0]ᵀ : Matrix (Fin 2) (Fin 2) ℝ) (i := 1) (j := 0) (by norm_num) (by norm_num)
    rw [f00, f11, f10]
    simp

/-- **C64 (SPD, affine invariant metric).** With a symmetric Euclidean gradient and a symmetric Euclidean Hessian operator `E` the returned vector is tangent and the action
is self-adjoint in the affine invariant metric. -/
theorem C64_spd_hessian_symmetric {x L : Matrix (Fin n) (Fin n) ℝ} (h : IsChol x L) {G : Matrix (Fin n) (Fin n) ℝ} (hG : Gᵀ = G)
    (E : Matrix (Fin n) (Fin n) ℝ → Matrix (Fin n) (Fin n) ℝ) (hEs : ∀ η, ηᵀ = η → (E η)ᵀ = E η) (hE : ∀ η ξ, ηᵀ = η → ξᵀ = ξ → frob (E η) ξ = frob η (E ξ))
    {η ξ : Matrix (Fin n) (Fin n) ℝ} (hη : ηᵀ = η) (hξ : ξᵀ = ξ) :
    (hessAF x G η (E η))ᵀ = hessAF x G η (E η) ∧ metricAF x (hessAF x G η (E η)) ξ = metricAF x η (hessAF x G ξ (E ξ)) := by
  have hxi : (x⁻¹)ᵀ = x⁻¹ := by rw [transpose_nonsing_inv, h.sym]
  have key : ∀ η ξ : Matrix (Fin n) (Fin n) ℝ, ηᵀ = η → ξᵀ = ξ →
      metricAF x (hessAF x G η (E η)) ξ = frob (E η) ξ + (1 / 2) * (trace (G * η * x⁻¹ * ξ) + trace (x⁻¹ * η * G * ξ)) := by
    intro η ξ hη hξ
    have e1 : x⁻¹ * hessAF x G η (E η) * x⁻¹ = E η + (1 / 2 : ℝ) • (G * η * x⁻¹ + x⁻¹ * η * G) := by
      simp only [hessAF]
      have a1 : x⁻¹ * (x * E η * x) * x⁻¹ = E η := by
        calc _ = (x⁻¹ * x) * E η * (x * x⁻¹) := by simp only [Matrix.mul_assoc]
          _ = _ := by rw [h.inv_mul, h.mul_inv, Matrix.one_mul, Matrix.mul_one]
      have a2 : x⁻¹ * (x * G * η) * x⁻¹ = G * η * x⁻¹ := by
        calc _ = (x⁻¹ * x) * G * η * x⁻¹ := by simp only [Matrix.mul_assoc]
          _ = _ := by rw [h.inv_mul, Matrix.one_mul]
      have a3 : x⁻¹ * (x * G * η)ᵀ * x⁻¹ = x⁻¹ * η * G := by
        rw [transpose_mul, transpose_mul, hη, hG, h.sym]
        calc _ = x⁻¹ * η * G * (x * x⁻¹) := by simp only [Matrix.mul_assoc]
          _ = _ := by rw [h.mul_inv, Matrix.mul_one]
      rw [Matrix.mul_add, Matrix.add_mul, a1, Matrix.mul_smul, Matrix.smul_mul, Matrix.mul_add, Matrix.add_mul, a2, a3]
    unfold metricAF
    rw [e1, frob_add_left, frob_smul_left, frob_add_left]
    congr 1
    have t1 : frob (G * η * x⁻¹) ξ = trace (x⁻¹ * η * G * ξ) := by
      rw [frob_eq_trace]; simp only [transpose_mul, hη, hG, hxi, Matrix.mul_assoc]
    have t2 : frob (x⁻¹ * η * G) ξ = trace (G * η * x⁻¹ * ξ) := by
      rw [frob_eq_trace]; simp only [transpose_mul, hη, hG, hxi, Matrix.mul_assoc]
    rw [t1, t2]; ring
  have mcomm : ∀ η ξ : Matrix (Fin n) (Fin n) ℝ, metricAF x η ξ = metricAF x ξ η := by
    intro η ξ; rw [metricAF_eq h, metricAF_eq h, frob_comm]
  refine ⟨?_, ?_⟩
  · simp only [hessAF, transpose_add, transpose_smul, transpose_mul, h.sym, hEs η hη, hη, hG, Matrix.mul_assoc]
    congr 2
    abel
  · rw [mcomm η, key η ξ hη hξ, key ξ η hξ hη, hE η ξ hη hξ, frob_comm η]
    have s1 : trace (G * η * x⁻¹ * ξ) = trace (G * ξ * x⁻¹ * η) := by
      rw [← trace_transpose]
      simp only [transpose_mul, hη, hξ, hG, hxi, ← Matrix.mul_assoc]
      rw [trace_mul_comm]
      simp only [← Matrix.mul_assoc]
    have s2 : trace (x⁻¹ * η * G * ξ) = trace (x⁻¹ * ξ * G * η) := by
      rw [← trace_transpose]
      simp only [transpose_mul, hη, hξ, hG, hxi, ← Matrix.mul_assoc]
      rw [trace_mul_comm]
      simp only [← Matrix.mul_assoc]
    rw [s1, s2]

/-! ### The hypotheses are met -/

example : IsChol (!![4, 2; 2, 10] : Matrix (Fin 2) (Fin 2) ℝ) !![2, 0; 1, 3] ∧ Spd (!![4, 2; 2, 10] : Matrix (Fin 2) (Fin 2) ℝ) := by
  have h : IsChol (!![4, 2; 2, 10] : Matrix (Fin 2) (Fin 2) ℝ) !![2, 0; 1, 3] := by
    refine ⟨by simp [det_fin_two], ?_⟩
    ext i j; fin_cases i <;> fin_cases j <;> simp [mul_apply, Fin.sum_univ_two] <;> norm_num
  exact ⟨h, h.spd⟩

/-- A large tangent vector at the identity: `x + η` is not positive definite, the second-order retraction is. -/
example : Spd (secOrd 1 1 (!![-5, 1; 1, 0] : Matrix (Fin 2) (Fin 2) ℝ)) := by
  refine (C38_second_order ⟨by simp, by simp⟩ ?_).1
  ext i j; fin_cases i <;> fin_cases j <;> simp

/-- Eigendecompositions of the matrices in `C39_not_symmetric` exist. -/
example : IsEig (distArg (1 : Matrix (Fin 3) (Fin 3) ℝ) ((2 : ℝ) • 1)) 1 (fun _ => 4) := by
  refine ⟨by simp, ?_⟩
  simp only [distArg, inv_one, Matrix.one_mul, transpose_smul, transpose_one, Matrix.smul_mul, smul_smul, Matrix.mul_one]
  ext i j
  simp only [Matrix.smul_apply, Matrix.one_apply, diagonal_apply, smul_eq_mul]
  split <;> norm_num

end Verif.SPD
