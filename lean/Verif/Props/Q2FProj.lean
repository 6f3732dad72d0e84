import Verif.Manifold.Q2FProj
import Verif.Props.SymFRFirst
import Mathlib.Analysis.InnerProductSpace.PiL2

/-!
# C154: the projective retraction of the two-factor form

Specification: `represented x = G Hᴴ` is the matrix a pair stands for, `moved x η = G Hᴴ + dG Hᴴ + G dHᴴ` the matrix the step asks for; distances are Frobenius distances (`CMat.ip`).
-/

set_option linter.unusedSectionVars false
set_option linter.unusedSimpArgs false

namespace Verif.Q2F

open Matrix Verif.CMat Finset

variable {𝕜 : Type*} [RCLike 𝕜]
variable {m n r : Type*} [Fintype m] [Fintype n] [Fintype r] [DecidableEq m] [DecidableEq n] [DecidableEq r]

/-! ## Specification -/

/-- The matrix a pair of factors stands for. -/
def represented (x : Pair 𝕜 m n r) : Matrix m n 𝕜 := x.G * x.Hᴴ

/-- The tangent vector of the embedded manifold. -/
def direction (x η : Pair 𝕜 m n r) : Matrix m n 𝕜 := η.G * x.Hᴴ + x.G * η.Hᴴ

/-- Squared Frobenius distance. -/
noncomputable def gap2 (A B : Matrix m n 𝕜) : ℝ := ip (A - B) (A - B)

/-- What LAPACK promises for the calls at `x`, `η`. -/
structure ProjLapack.Good (lp : ProjLapack 𝕜 m n r) (x η : Pair 𝕜 m n r) : Prop where
  qm : (lp.qm (fromCols x.G η.G))ᴴ * lp.qm (fromCols x.G η.G) = 1
  qrm : lp.qm (fromCols x.G η.G) * lp.rm (fromCols x.G η.G) = fromCols x.G η.G
  qn : (lp.qn (fromCols x.H η.H))ᴴ * lp.qn (fromCols x.H η.H) = 1
  qrn : lp.qn (fromCols x.H η.H) * lp.rn (fromCols x.H η.H) = fromCols x.H η.H
  svd : ∀ M, M = lp.rm (fromCols x.G η.G) * projMid * (lp.rn (fromCols x.H η.H))ᴴ → lp.u M * diagonal (fun i => ((lp.s M i : ℝ) : 𝕜)) * lp.vt M = M ∧ (lp.u M)ᴴ * lp.u M = 1 ∧ lp.vt M * (lp.vt M)ᴴ = 1
  values : ∀ M, M = lp.rm (fromCols x.G η.G) * projMid * (lp.rn (fromCols x.H η.H))ᴴ → (∀ i, 0 ≤ lp.s M i) ∧ ∀ i j, lp.s M (Sum.inr j) ≤ lp.s M (Sum.inl i)

/-! ## Low-rank approximation -/

theorem orth_basis {q : Type*} [Fintype q] [DecidableEq q] (A : Matrix m q 𝕜) : ∃ (d : ℕ) (Q : Matrix m (Fin d) 𝕜), d ≤ Fintype.card q ∧ Qᴴ * Q = 1 ∧ Q * (Qᴴ * A) = A := by
  let S : Submodule 𝕜 (EuclideanSpace 𝕜 m) := Submodule.span 𝕜 (Set.range fun j : q => (WithLp.toLp 2 (fun i => A i j) : EuclideanSpace 𝕜 m))
  let b := stdOrthonormalBasis 𝕜 S
  refine ⟨Module.finrank 𝕜 S, of fun i k => (b k : EuclideanSpace 𝕜 m) i, finrank_range_le_card _, ?_, ?_⟩
  · ext k l
    have h := orthonormal_iff_ite.1 b.orthonormal k l
    rw [Matrix.mul_apply, Matrix.one_apply]
    rw [← h]
    simp only [Submodule.coe_inner, PiLp.inner_apply, conjTranspose_apply, of_apply, RCLike.inner_apply, RCLike.star_def]
    exact Finset.sum_congr rfl fun i _ => mul_comm _ _
  · ext i j
    have hj : (WithLp.toLp 2 (fun i => A i j) : EuclideanSpace 𝕜 m) ∈ S := Submodule.subset_span ⟨j, rfl⟩
    have h := congrArg (fun v : S => (v : EuclideanSpace 𝕜 m) i) (b.sum_repr' ⟨_, hj⟩)
    simp only [Submodule.coe_sum, Submodule.coe_smul] at h
    have e : (∑ k, (inner 𝕜 (b k) (⟨_, hj⟩ : S)) • (b k : EuclideanSpace 𝕜 m)).ofLp i = ∑ k, inner 𝕜 (b k) (⟨_, hj⟩ : S) * (b k : EuclideanSpace 𝕜 m) i := by
      simp [WithLp.ofLp_sum, Finset.sum_apply]
    rw [Matrix.mul_apply]
    refine Eq.trans ?_ h
    rw [e]
    refine Finset.sum_congr rfl fun k _ => ?_
    rw [of_apply, mul_comm, Matrix.mul_apply]
    congr 1
    simp only [Submodule.coe_inner, PiLp.inner_apply, conjTranspose_apply, of_apply, RCLike.inner_apply, RCLike.star_def]
    exact Finset.sum_congr rfl fun i _ => mul_comm _ _

theorem weights {s2 c : r ⊕ r → ℝ} (h0 : ∀ k, 0 ≤ s2 k) (hs : ∀ i j, s2 (Sum.inr j) ≤ s2 (Sum.inl i)) (c0 : ∀ k, 0 ≤ c k) (c1 : ∀ k, c k ≤ 1) (hc : ∑ k, c k ≤ Fintype.card r) :
    ∑ k, s2 k * c k ≤ ∑ i : r, s2 (Sum.inl i) ∧
      ((∀ i j, s2 (Sum.inr j) < s2 (Sum.inl i)) → ∑ i : r, s2 (Sum.inl i) ≤ ∑ k, s2 k * c k → (∀ i, c (Sum.inl i) = 1) ∧ ∀ j, c (Sum.inr j) = 0) := by
  rcases isEmpty_or_nonempty r with he | hne
  · refine ⟨by simp, fun _ _ => ⟨fun i => (IsEmpty.false i).elim, fun i => (IsEmpty.false i).elim⟩⟩
  obtain ⟨j0, hj0⟩ := Finite.exists_max fun j : r => s2 (Sum.inr j)
  rw [Fintype.sum_sum_type] at hc ⊢
  have hcard : (Fintype.card r : ℝ) = ∑ _i : r, (1 : ℝ) := by simp
  rw [hcard] at hc
  have e : ∑ i : r, s2 (Sum.inl i) - (∑ i, s2 (Sum.inl i) * c (Sum.inl i) + ∑ j, s2 (Sum.inr j) * c (Sum.inr j)) =
      ∑ i, (s2 (Sum.inl i) - s2 (Sum.inr j0)) * (1 - c (Sum.inl i)) + ∑ j, (s2 (Sum.inr j0) - s2 (Sum.inr j)) * c (Sum.inr j) +
        s2 (Sum.inr j0) * (∑ _i : r, (1 : ℝ) - (∑ i, c (Sum.inl i) + ∑ j, c (Sum.inr j))) := by
    simp only [sub_mul, mul_sub, Finset.sum_sub_distrib, mul_one, mul_add, ← Finset.mul_sum]
    rw [Finset.mul_sum univ (fun _ : r => (1 : ℝ))]
    simp only [mul_one]
    ring
  have p1 : ∀ i, 0 ≤ (s2 (Sum.inl i) - s2 (Sum.inr j0)) * (1 - c (Sum.inl i)) := fun i => mul_nonneg (sub_nonneg.2 (hs i j0)) (sub_nonneg.2 (c1 _))
  have p2 : ∀ j, 0 ≤ (s2 (Sum.inr j0) - s2 (Sum.inr j)) * c (Sum.inr j) := fun j => mul_nonneg (sub_nonneg.2 (hj0 j)) (c0 _)
  have q1 := Finset.sum_nonneg fun i (_ : i ∈ univ) => p1 i
  have q2 := Finset.sum_nonneg fun j (_ : j ∈ univ) => p2 j
  have q3 := mul_nonneg (h0 (Sum.inr j0)) (sub_nonneg.2 hc)
  refine ⟨by linarith, fun hlt hle => ?_⟩
  have z1 : ∑ i, (s2 (Sum.inl i) - s2 (Sum.inr j0)) * (1 - c (Sum.inl i)) = 0 := by linarith
  have w1 : ∀ i, c (Sum.inl i) = 1 := by
    intro i
    have := (Finset.sum_eq_zero_iff_of_nonneg fun i _ => p1 i).1 z1 i (mem_univ _)
    rcases mul_eq_zero.1 this with h | h
    · have := hlt i j0
      linarith
    · linarith
  refine ⟨w1, ?_⟩
  simp only [w1] at hc
  have z2 : ∑ j, c (Sum.inr j) = 0 := le_antisymm (by linarith) (Finset.sum_nonneg fun j _ => c0 _)
  exact fun j => (Finset.sum_eq_zero_iff_of_nonneg fun j _ => c0 (Sum.inr j)).1 z2 j (mem_univ _)

/-- The truncated decomposition. -/
def truncated (U : Matrix m (r ⊕ r) 𝕜) (s : r ⊕ r → ℝ) (V : Matrix n (r ⊕ r) 𝕜) : Matrix m n 𝕜 := U * diagonal (Sum.elim (fun i => ((s (Sum.inl i) : ℝ) : 𝕜)) fun _ => 0) * Vᴴ

theorem ip_iso {q l : Type*} [Fintype q] [Fintype l] [DecidableEq q] [DecidableEq l] {U : Matrix m q 𝕜} (hU : Uᴴ * U = 1) (A : Matrix q l 𝕜) : ip (U * A) (U * A) = ip A A := by
  rw [ip_mul_left, ← Matrix.mul_assoc, hU, Matrix.one_mul]

theorem ip_iso' {q l : Type*} [Fintype q] [Fintype l] [DecidableEq q] [DecidableEq l] {V : Matrix n q 𝕜} (hV : Vᴴ * V = 1) (A : Matrix l q 𝕜) : ip (A * Vᴴ) (A * Vᴴ) = ip A A := by
  rw [ip_mul_right, conjTranspose_conjTranspose, Matrix.mul_assoc, hV, Matrix.mul_one]

theorem ip_split {q l : Type*} [Fintype q] [Fintype l] [DecidableEq q] [DecidableEq l] {U : Matrix m q 𝕜} (hU : Uᴴ * U = 1) (X : Matrix m l 𝕜) (W : Matrix q l 𝕜) :
    ip (X - U * W) (X - U * W) = ip X X - 2 * ip (Uᴴ * X) W + ip W W := by
  rw [ip_sub_left, ip_sub_right X, ip_sub_right (U * W), ip_iso hU, ip_comm (U * W) X, ip_mul_left' U W X]
  ring

theorem ip_mul_diagonal {q l : Type*} [Fintype q] [Fintype l] [DecidableEq q] [DecidableEq l] (A : Matrix l q 𝕜) (s : q → ℝ) :
    ip (A * diagonal fun k => ((s k : ℝ) : 𝕜)) (A * diagonal fun k => ((s k : ℝ) : 𝕜)) = ∑ k, s k ^ 2 * ∑ j, ‖A j k‖ ^ 2 := by
  rw [Verif.SymFR.ip_norm, Finset.sum_comm]
  refine Finset.sum_congr rfl fun k _ => ?_
  rw [Finset.mul_sum]
  refine Finset.sum_congr rfl fun j _ => ?_
  rw [mul_diagonal, norm_mul, mul_pow, RCLike.norm_ofReal, sq_abs, mul_comm]

theorem trunc_gap {U : Matrix m (r ⊕ r) 𝕜} {V : Matrix n (r ⊕ r) 𝕜} {s : r ⊕ r → ℝ} (hU : Uᴴ * U = 1) (hV : Vᴴ * V = 1) :
    gap2 (U * diagonal (fun k => ((s k : ℝ) : 𝕜)) * Vᴴ) (truncated U s V) = ∑ j, s (Sum.inr j) ^ 2 := by
  have e : U * diagonal (fun k => ((s k : ℝ) : 𝕜)) * Vᴴ - truncated U s V = U * ((1 : Matrix (r ⊕ r) (r ⊕ r) 𝕜) * diagonal (fun k => ((Sum.elim (fun _ => 0) (fun j => s (Sum.inr j)) k : ℝ) : 𝕜))) * Vᴴ := by
    rw [truncated, ← Matrix.sub_mul, ← Matrix.mul_sub, Matrix.one_mul]
    congr 2
    ext a b
    by_cases hab : a = b
    · subst hab
      cases a <;> simp
    · simp [diagonal_apply_ne _ hab]
  rw [gap2, e, ip_iso' hV, ip_iso hU, ip_mul_diagonal, Fintype.sum_sum_type]
  have h1 : ∀ k : r ⊕ r, ∑ j, ‖(1 : Matrix (r ⊕ r) (r ⊕ r) 𝕜) j k‖ ^ 2 = 1 := by
    intro k
    rw [Finset.sum_eq_single k]
    · simp
    · intro b _ hb
      simp [Matrix.one_apply_ne hb]
    · simp
  simp [h1]

/-- Eckart and Young: no product of factors with `r` columns is nearer than the truncated decomposition, and with a gap after the `r`-th singular value no other one is as near. -/
theorem low_rank {U : Matrix m (r ⊕ r) 𝕜} {V : Matrix n (r ⊕ r) 𝕜} {s : r ⊕ r → ℝ} (hU : Uᴴ * U = 1) (hV : Vᴴ * V = 1) (h0 : ∀ k, 0 ≤ s k) (hs : ∀ i j, s (Sum.inr j) ≤ s (Sum.inl i)) (A : Matrix m r 𝕜) (C : Matrix r n 𝕜) :
    ∑ j, s (Sum.inr j) ^ 2 ≤ gap2 (U * diagonal (fun k => ((s k : ℝ) : 𝕜)) * Vᴴ) (A * C) ∧
      ((∀ i j, s (Sum.inr j) < s (Sum.inl i)) → gap2 (U * diagonal (fun k => ((s k : ℝ) : 𝕜)) * Vᴴ) (A * C) ≤ ∑ j, s (Sum.inr j) ^ 2 → A * C = truncated U s V) := by
  obtain ⟨d, Q, hd, hQ, hA⟩ := orth_basis A
  set X := U * diagonal (fun k => ((s k : ℝ) : 𝕜)) * Vᴴ with hX
  set W := Qᴴ * (A * C)
  have hB : A * C = Q * W := by
    show A * C = Q * (Qᴴ * (A * C))
    rw [← Matrix.mul_assoc Qᴴ, ← Matrix.mul_assoc Q, hA]
  set c : r ⊕ r → ℝ := fun k => ∑ j, ‖(Qᴴ * U) j k‖ ^ 2 with hc
  have eX : ip X X = ∑ k, s k ^ 2 := by
    rw [hX, ip_iso' hV, ← Matrix.mul_one U, Matrix.mul_assoc, ip_iso hU, ip_mul_diagonal]
    refine Finset.sum_congr rfl fun k _ => ?_
    rw [Finset.sum_eq_single k]
    · simp
    · intro b _ hb
      simp [Matrix.one_apply_ne hb]
    · simp
  have eQX : ip (Qᴴ * X) (Qᴴ * X) = ∑ k, s k ^ 2 * c k := by
    rw [hX, ← Matrix.mul_assoc, ip_iso' hV, ← Matrix.mul_assoc, ip_mul_diagonal]
  have split : gap2 X (A * C) = ip (Qᴴ * X - W) (Qᴴ * X - W) + ∑ k, s k ^ 2 - ∑ k, s k ^ 2 * c k := by
    rw [hB, gap2, ip_split hQ, ip_sub_left, ip_sub_right (Qᴴ * X), ip_sub_right W, eX, eQX, ip_comm W (Qᴴ * X)]
    ring
  have c0 : ∀ k, 0 ≤ c k := fun k => Finset.sum_nonneg fun _ _ => by positivity
  have ecol : ∀ k, ip (Qᴴ * U.submatrix id fun _ : Unit => k) (Qᴴ * U.submatrix id fun _ : Unit => k) = c k := by
    intro k
    rw [Verif.SymFR.ip_norm]
    refine Finset.sum_congr rfl fun j _ => ?_
    rw [Finset.univ_unique, Finset.sum_singleton]
    rfl
  have ucol : ∀ k, ip (U.submatrix id fun _ : Unit => k) (U.submatrix id fun _ : Unit => k) = 1 := by
    intro k
    have h := congrFun (congrFun hU k) k
    rw [Verif.SymFR.gram_diag, Matrix.one_apply_eq] at h
    rw [Verif.SymFR.ip_norm]
    simp only [Finset.univ_unique, Finset.sum_singleton, submatrix_apply, id]
    exact_mod_cast h
  have rest : ∀ k, ip (U.submatrix id (fun _ : Unit => k) - Q * (Qᴴ * U.submatrix id fun _ : Unit => k)) (U.submatrix id (fun _ : Unit => k) - Q * (Qᴴ * U.submatrix id fun _ : Unit => k)) = 1 - c k := by
    intro k
    rw [ip_split hQ, ucol, ecol]
    ring
  have c1 : ∀ k, c k ≤ 1 := fun k => by
    have := ip_self_nonneg (U.submatrix id (fun _ : Unit => k) - Q * (Qᴴ * U.submatrix id fun _ : Unit => k))
    rw [rest] at this
    linarith
  have hcs : ∑ k, c k ≤ Fintype.card r := by
    have e1 : ∑ k, c k = ip (Qᴴ * U) (Qᴴ * U) := by rw [Verif.SymFR.ip_norm, Finset.sum_comm]
    have e2 : ip Q Q = d := by
      rw [ip_eq_trace, hQ, trace_one, Fintype.card_fin]
      simp
    have := Verif.SymFR.ip_contract hU Q
    have hd' : (d : ℝ) ≤ Fintype.card r := by exact_mod_cast hd
    linarith
  obtain ⟨w1, w2⟩ := weights (s2 := fun k => s k ^ 2) (fun k => sq_nonneg _) (fun i j => pow_le_pow_left₀ (h0 _) (hs i j) 2) c0 c1 hcs
  have hsum : ∑ k, s k ^ 2 = ∑ i, s (Sum.inl i) ^ 2 + ∑ j, s (Sum.inr j) ^ 2 := Fintype.sum_sum_type _
  have hW := ip_self_nonneg (Qᴴ * X - W)
  refine ⟨by rw [split, hsum]; linarith, fun hlt hle => ?_⟩
  rw [split, hsum] at hle
  obtain ⟨d1, d0⟩ := w2 (fun i j => pow_lt_pow_left₀ (hlt i j) (h0 _) two_ne_zero) (by linarith)
  have hWX : W = Qᴴ * X := (sub_eq_zero.1 (ip_self_eq_zero.1 (le_antisymm (by linarith) hW))).symm
  have hQU : Q * (Qᴴ * U) = U * diagonal (Sum.elim (fun _ : r => (1 : 𝕜)) fun _ : r => 0) := by
    ext a k
    rw [mul_diagonal]
    have key : (Q * (Qᴴ * U)) a k = (Q * (Qᴴ * U.submatrix id fun _ : Unit => k)) a () := rfl
    cases k with
    | inl i =>
      have h := rest (Sum.inl i)
      rw [d1, sub_self] at h
      have h := congrFun (congrFun (ip_self_eq_zero.1 h) a) ()
      rw [Matrix.sub_apply, Matrix.zero_apply, sub_eq_zero] at h
      rw [key, ← h]
      simp
    | inr j =>
      have h := ecol (Sum.inr j)
      rw [d0] at h
      rw [key, ip_self_eq_zero.1 h]
      simp
  rw [hB, hWX, hX, ← Matrix.mul_assoc Qᴴ, ← Matrix.mul_assoc Qᴴ, ← Matrix.mul_assoc Q, ← Matrix.mul_assoc Q, hQU, truncated, Matrix.mul_assoc U, diagonal_mul_diagonal]
  congr 3
  funext k
  cases k <;> simp

/-! ## The retraction -/

/-- The step in the coordinates of the two QR decompositions. -/
theorem moved_eq {lp : ProjLapack 𝕜 m n r} {x η : Pair 𝕜 m n r} (ok : lp.Good x η) :
    represented x + direction x η = lp.qm (fromCols x.G η.G) * (lp.rm (fromCols x.G η.G) * projMid * (lp.rn (fromCols x.H η.H))ᴴ) * (lp.qn (fromCols x.H η.H))ᴴ := by
  have e : fromCols x.G η.G * projMid * (fromCols x.H η.H)ᴴ = represented x + direction x η := by
    rw [projMid, fromCols_mul_fromBlocks, conjTranspose_fromCols_eq_fromRows_conjTranspose, fromCols_mul_fromRows]
    simp only [Matrix.mul_one, Matrix.mul_zero, add_zero, Matrix.add_mul, represented, direction]
    abel
  rw [← e]
  conv_lhs => rw [← ok.qrm, ← ok.qrn, conjTranspose_mul]
  simp only [Matrix.mul_assoc]

/-- The decomposition that the retraction truncates. -/
theorem decomposed {lp : ProjLapack 𝕜 m n r} {x η y : Pair 𝕜 m n r} (ok : lp.Good x η) (hy : projRetract lp x η = some y) :
    ∃ (U : Matrix m (r ⊕ r) 𝕜) (V : Matrix n (r ⊕ r) 𝕜) (s : r ⊕ r → ℝ), Uᴴ * U = 1 ∧ Vᴴ * V = 1 ∧ (∀ k, 0 ≤ s k) ∧ (∀ i j, s (Sum.inr j) ≤ s (Sum.inl i)) ∧
      represented x + direction x η = U * diagonal (fun k => ((s k : ℝ) : 𝕜)) * Vᴴ ∧
      y.G = U.submatrix id Sum.inl * diagonal (fun i => ((√(s (Sum.inl i)) : ℝ) : 𝕜)) ∧ y.H = V.submatrix id Sum.inl * diagonal (fun i => ((√(s (Sum.inl i)) : ℝ) : 𝕜)) := by
  unfold projRetract at hy
  split at hy
  · cases hy
  injection hy with hy
  set M := lp.rm (fromCols x.G η.G) * projMid * (lp.rn (fromCols x.H η.H))ᴴ with hM
  refine ⟨lp.qm (fromCols x.G η.G) * lp.u M, lp.qn (fromCols x.H η.H) * (lp.vt M)ᴴ, lp.s M, ?_, ?_, (ok.values M hM).1, (ok.values M hM).2, ?_, ?_, ?_⟩
  · rw [conjTranspose_mul, Matrix.mul_assoc, ← Matrix.mul_assoc _ (lp.qm _), ok.qm, Matrix.one_mul, (ok.svd M hM).2.1]
  · rw [conjTranspose_mul, conjTranspose_conjTranspose, Matrix.mul_assoc, ← Matrix.mul_assoc _ (lp.qn _), ok.qn, Matrix.one_mul, (ok.svd M hM).2.2]
  · rw [moved_eq ok, ← hM]
    conv_lhs => rw [← (ok.svd M hM).1]
    simp only [conjTranspose_mul, conjTranspose_conjTranspose, Matrix.mul_assoc]
  · rw [← hy]
    rfl
  · rw [← hy]
    rfl

theorem truncated_eq {U : Matrix m (r ⊕ r) 𝕜} {V : Matrix n (r ⊕ r) 𝕜} {s : r ⊕ r → ℝ} (h0 : ∀ k, 0 ≤ s k) :
    (U.submatrix id Sum.inl * diagonal (fun i : r => ((√(s (Sum.inl i)) : ℝ) : 𝕜))) * (V.submatrix id Sum.inl * diagonal (fun i : r => ((√(s (Sum.inl i)) : ℝ) : 𝕜)))ᴴ = truncated U s V := by
  ext a b
  rw [truncated, Matrix.mul_apply, Matrix.mul_apply, Fintype.sum_sum_type]
  simp only [mul_diagonal, conjTranspose_apply, submatrix_apply, id, Sum.elim_inl, Sum.elim_inr, mul_zero, zero_mul, Finset.sum_const_zero, add_zero, star_mul, RCLike.star_def, RCLike.conj_ofReal]
  refine Finset.sum_congr rfl fun i _ => ?_
  have : ((√(s (Sum.inl i)) : ℝ) : 𝕜) * ((√(s (Sum.inl i)) : ℝ) : 𝕜) = ((s (Sum.inl i) : ℝ) : 𝕜) := by
    rw [← RCLike.ofReal_mul, Real.mul_self_sqrt (h0 _)]
  rw [← this]
  ring

/-- The retraction returns the truncated decomposition of the matrix the step asks for. -/
theorem retracted {lp : ProjLapack 𝕜 m n r} {x η y : Pair 𝕜 m n r} (ok : lp.Good x η) (hy : projRetract lp x η = some y) :
    ∃ (U : Matrix m (r ⊕ r) 𝕜) (V : Matrix n (r ⊕ r) 𝕜) (s : r ⊕ r → ℝ), Uᴴ * U = 1 ∧ Vᴴ * V = 1 ∧ (∀ k, 0 ≤ s k) ∧ (∀ i j, s (Sum.inr j) ≤ s (Sum.inl i)) ∧
      represented x + direction x η = U * diagonal (fun k => ((s k : ℝ) : 𝕜)) * Vᴴ ∧ represented y = truncated U s V := by
  obtain ⟨U, V, s, hU, hV, h0, hs, e, eG, eH⟩ := decomposed ok hy
  exact ⟨U, V, s, hU, hV, h0, hs, e, by rw [represented, eG, eH, truncated_eq h0]⟩

/-- **C154 (domain).** `ProjRetraction` is defined exactly when both factors have at least `2r` rows; otherwise it writes behind the array of singular values. -/
theorem C154_defined (lp : ProjLapack 𝕜 m n r) (x η : Pair 𝕜 m n r) :
    (∃ y, projRetract lp x η = some y) ↔ 2 * Fintype.card r ≤ Fintype.card m ∧ 2 * Fintype.card r ≤ Fintype.card n := by
  unfold projRetract
  split
  next h => exact ⟨fun ⟨_, hy⟩ => (by cases hy), fun h' => by omega⟩
  next h => exact ⟨fun _ => by omega, fun _ => ⟨_, rfl⟩⟩

/-- **C154 (metric projection).** The matrix of the result is a nearest one, among all matrices with factors of `r` columns, to `G Hᴴ + dG Hᴴ + G dHᴴ`. -/
theorem C154_nearest {lp : ProjLapack 𝕜 m n r} {x η y : Pair 𝕜 m n r} (ok : lp.Good x η) (hy : projRetract lp x η = some y) (z : Pair 𝕜 m n r) :
    gap2 (represented x + direction x η) (represented y) ≤ gap2 (represented x + direction x η) (represented z) := by
  obtain ⟨U, V, s, hU, hV, h0, hs, e, ey⟩ := retracted ok hy
  rw [e, ey, trunc_gap hU hV]
  exact (low_rank hU hV h0 hs z.G z.Hᴴ).1

/-- **C154 (well defined on the quotient).** Two pairs of factors for the same matrix, with vectors for the same direction, give results for the same matrix, whatever factorisations LAPACK chooses, provided the `r`-th singular
value of the moved matrix exceeds the next one (here: the `r` columns kept can be told from those dropped). -/
theorem C154_quotient {lp lp' : ProjLapack 𝕜 m n r} {x η y x' η' y' : Pair 𝕜 m n r} (ok : lp.Good x η) (ok' : lp'.Good x' η') (hy : projRetract lp x η = some y) (hy' : projRetract lp' x' η' = some y')
    (hx : represented x' = represented x) (hη : direction x' η' = direction x η)
    (hgap : ∀ M, M = lp.rm (fromCols x.G η.G) * projMid * (lp.rn (fromCols x.H η.H))ᴴ → ∀ i j, lp.s M (Sum.inr j) < lp.s M (Sum.inl i)) : represented y' = represented y := by
  have hn := C154_nearest ok' hy' y
  rw [hx, hη] at hn
  unfold projRetract at hy
  split at hy
  · cases hy
  next hsz =>
  have hy2 : projRetract lp x η = some y := by
    unfold projRetract
    rw [if_neg hsz]
    exact hy
  injection hy with hy
  set M := lp.rm (fromCols x.G η.G) * projMid * (lp.rn (fromCols x.H η.H))ᴴ with hM
  have hU : (lp.qm (fromCols x.G η.G) * lp.u M)ᴴ * (lp.qm (fromCols x.G η.G) * lp.u M) = 1 := by
    rw [conjTranspose_mul, Matrix.mul_assoc, ← Matrix.mul_assoc _ (lp.qm _), ok.qm, Matrix.one_mul, (ok.svd M hM).2.1]
  have hV : (lp.qn (fromCols x.H η.H) * (lp.vt M)ᴴ)ᴴ * (lp.qn (fromCols x.H η.H) * (lp.vt M)ᴴ) = 1 := by
    rw [conjTranspose_mul, conjTranspose_conjTranspose, Matrix.mul_assoc, ← Matrix.mul_assoc _ (lp.qn _), ok.qn, Matrix.one_mul, (ok.svd M hM).2.2]
  have e : represented x + direction x η = (lp.qm (fromCols x.G η.G) * lp.u M) * diagonal (fun k => ((lp.s M k : ℝ) : 𝕜)) * (lp.qn (fromCols x.H η.H) * (lp.vt M)ᴴ)ᴴ := by
    rw [moved_eq ok, ← hM]
    conv_lhs => rw [← (ok.svd M hM).1]
    simp only [conjTranspose_mul, conjTranspose_conjTranspose, Matrix.mul_assoc]
  have ey : represented y = truncated (lp.qm (fromCols x.G η.G) * lp.u M) (lp.s M) (lp.qn (fromCols x.H η.H) * (lp.vt M)ᴴ) := by
    rw [← truncated_eq (ok.values M hM).1, ← hy]
    rfl
  have hle : gap2 (represented x + direction x η) (represented y') ≤ ∑ j, lp.s M (Sum.inr j) ^ 2 := by
    refine hn.trans (le_of_eq ?_)
    rw [e, ey, trunc_gap hU hV]
  rw [e] at hle
  rw [ey]
  exact (low_rank hU hV (ok.values M hM).1 (ok.values M hM).2 y'.G y'.Hᴴ).2 (hgap M hM) hle

/-- A vector times a number, as `ScalarTimesVector` of the product does. -/
def scaled (t : ℝ) (η : Pair 𝕜 m n r) : Pair 𝕜 m n r := ⟨(t : 𝕜) • η.G, (t : 𝕜) • η.H⟩

/-- **C154 (first order).** Along a ray the matrix of the result differs from `G Hᴴ + t (dG Hᴴ + G dHᴴ)` by at most `t² ‖dG dHᴴ‖`. -/
theorem C154_first_order {lp : ProjLapack 𝕜 m n r} {x η y : Pair 𝕜 m n r} (t : ℝ) (ok : lp.Good x (scaled t η)) (hy : projRetract lp x (scaled t η) = some y) :
    gap2 (represented x + (t : 𝕜) • direction x η) (represented y) ≤ t ^ 4 * ip (η.G * η.Hᴴ) (η.G * η.Hᴴ) := by
  have hd : direction x (scaled t η) = (t : 𝕜) • direction x η := by
    simp [direction, scaled, smul_add, conjTranspose_smul]
  have h := C154_nearest ok hy (retract x (scaled t η))
  rw [hd] at h
  refine h.trans (le_of_eq ?_)
  have e : represented x + (t : 𝕜) • direction x η - represented (retract x (scaled t η)) = ((-t ^ 2 : ℝ) : 𝕜) • (η.G * η.Hᴴ) := by
    rw [← hd]
    simp only [represented, retract, direction, scaled, conjTranspose_add, conjTranspose_smul, Matrix.add_mul, Matrix.mul_add, Matrix.smul_mul, Matrix.mul_smul, RCLike.star_def, RCLike.conj_ofReal, smul_add, smul_smul]
    have : ((-t ^ 2 : ℝ) : 𝕜) = -((t : 𝕜) * (t : 𝕜)) := by push_cast; ring
    rw [this, neg_smul]
    abel
  rw [gap2, e, ip_smul_left, ip_smul_right]
  ring

/-- **C154 (centre).** With the zero vector the result stands for the same matrix. -/
theorem C154_centre {lp : ProjLapack 𝕜 m n r} {x y : Pair 𝕜 m n r} (ok : lp.Good x ⟨0, 0⟩) (hy : projRetract lp x ⟨0, 0⟩ = some y) : represented y = represented x := by
  have e : (scaled 0 (⟨0, 0⟩ : Pair 𝕜 m n r)) = ⟨0, 0⟩ := by simp [scaled]
  have h := C154_first_order (lp := lp) (x := x) (η := ⟨0, 0⟩) (y := y) 0 (by rw [e]; exact ok) (by rw [e]; exact hy)
  have h1 : gap2 (represented x) (represented y) ≤ 0 := by simpa [direction] using h
  exact (sub_eq_zero.1 (ip_self_eq_zero.1 (le_antisymm h1 (ip_self_nonneg _)))).symm

theorem gram_first {l : Type*} [Fintype l] [DecidableEq l] {U : Matrix l (r ⊕ r) 𝕜} {s : r ⊕ r → ℝ} (h0 : ∀ k, 0 ≤ s k) (hU : Uᴴ * U = 1) :
    (U.submatrix id Sum.inl * diagonal (fun i : r => ((√(s (Sum.inl i)) : ℝ) : 𝕜)))ᴴ * (U.submatrix id Sum.inl * diagonal (fun i : r => ((√(s (Sum.inl i)) : ℝ) : 𝕜))) =
      diagonal fun i => ((s (Sum.inl i) : ℝ) : 𝕜) := by
  have h1 : (U.submatrix id Sum.inl : Matrix l r 𝕜)ᴴ * U.submatrix id Sum.inl = 1 := by
    ext a b
    have := congrFun (congrFun hU (Sum.inl a)) (Sum.inl b)
    rw [Matrix.one_apply] at this ⊢
    simp only [Sum.inl.injEq] at this
    rw [← this]
    rfl
  rw [conjTranspose_mul, Matrix.mul_assoc, ← Matrix.mul_assoc (U.submatrix id Sum.inl : Matrix l r 𝕜)ᴴ, h1, Matrix.one_mul, diagonal_conjTranspose, diagonal_mul_diagonal]
  congr 1
  funext i
  rw [Pi.star_apply, RCLike.star_def, RCLike.conj_ofReal, ← RCLike.ofReal_mul, Real.mul_self_sqrt (h0 _)]

/-- **C154 (balanced factors).** The two factors of the result have the same Gram matrix, which is diagonal and not negative. -/
theorem C154_balanced {lp : ProjLapack 𝕜 m n r} {x η y : Pair 𝕜 m n r} (ok : lp.Good x η) (hy : projRetract lp x η = some y) :
    ∃ w : r → ℝ, (∀ i, 0 ≤ w i) ∧ y.Gᴴ * y.G = diagonal (fun i => ((w i : ℝ) : 𝕜)) ∧ y.Hᴴ * y.H = diagonal fun i => ((w i : ℝ) : 𝕜) := by
  obtain ⟨U, V, s, hU, hV, h0, hs, e, eG, eH⟩ := decomposed ok hy
  exact ⟨fun i => s (Sum.inl i), fun i => h0 _, by rw [eG, gram_first h0 hU], by rw [eH, gram_first h0 hV]⟩

/-- **C154 (stays on the manifold).** The factors of the result have full rank, so that it is a point of the manifold, exactly when `G Hᴴ + dG Hᴴ + G dHᴴ` has rank at least `r`. -/
theorem C154_point {lp : ProjLapack 𝕜 m n r} {x η y : Pair 𝕜 m n r} (ok : lp.Good x η) (hy : projRetract lp x η = some y) :
    (IsUnit (y.Gᴴ * y.G) ∧ IsUnit (y.Hᴴ * y.H)) ↔ Fintype.card r ≤ (represented x + direction x η).rank := by
  obtain ⟨U, V, s, hU, hV, h0, hs, e, eG, eH⟩ := decomposed ok hy
  have hr : (represented x + direction x η).rank = Fintype.card {k : r ⊕ r // s k ≠ 0} := by
    have h1 : (represented x + direction x η).rank ≤ (diagonal fun k => ((s k : ℝ) : 𝕜)).rank := by
      rw [e]
      exact (rank_mul_le_left _ _).trans (rank_mul_le_right _ _)
    have h2 : (diagonal fun k => ((s k : ℝ) : 𝕜)).rank ≤ (represented x + direction x η).rank := by
      have : (diagonal fun k => ((s k : ℝ) : 𝕜)) = Uᴴ * (represented x + direction x η) * V := by
        rw [e]
        simp only [Matrix.mul_assoc]
        rw [hV, Matrix.mul_one, ← Matrix.mul_assoc, hU, Matrix.one_mul]
      rw [this]
      exact (rank_mul_le_left _ _).trans (rank_mul_le_right _ _)
    rw [le_antisymm h1 h2, rank_diagonal]
    exact Fintype.card_congr (Equiv.subtypeEquivRight fun k => by simp)
  have hu : IsUnit (diagonal fun i : r => ((s (Sum.inl i) : ℝ) : 𝕜)) ↔ ∀ i, s (Sum.inl i) ≠ 0 := by
    rw [Matrix.isUnit_iff_isUnit_det, det_diagonal, isUnit_iff_ne_zero, Finset.prod_ne_zero_iff]
    exact ⟨fun h i => by simpa using h i (mem_univ _), fun h i _ => by simpa using h i⟩
  rw [eG, eH, gram_first h0 hU, gram_first h0 hV, and_self, hu, hr]
  constructor
  · intro h
    exact Fintype.card_le_of_injective (fun i : r => (⟨Sum.inl i, h i⟩ : {k : r ⊕ r // s k ≠ 0})) fun a b hab => by simpa using hab
  · intro h i hi
    have hz : ∀ j, s (Sum.inr j) = 0 := fun j => le_antisymm (hi ▸ hs i j) (h0 _)
    have hlt : Fintype.card {k : r ⊕ r // s k ≠ 0} < Fintype.card r := by
      refine Fintype.card_lt_of_injective_of_notMem (fun k : {k : r ⊕ r // s k ≠ 0} => (k.1.elim id fun j => i : r)) ?_ (b := i) ?_
      · rintro ⟨a | a, ha⟩ ⟨b | b, hb⟩ hab
        · simpa using hab
        · exact (hb (hz b)).elim
        · exact (ha (hz a)).elim
        · exact (ha (hz a)).elim
      · rintro ⟨⟨a | a, ha⟩, hab⟩
        · exact ha (by rw [show a = i from hab]; exact hi)
        · exact ha (hz a)
    omega

/-! ## Instances -/

/-- `G = e₁`, `H = e₁`. -/
def xEx : Pair ℝ (Unit ⊕ Unit) (Unit ⊕ Unit) Unit := ⟨of fun i _ => i.elim (fun _ => 1) fun _ => 0, of fun i _ => i.elim (fun _ => 1) fun _ => 0⟩

/-- `dG = 2 e₁`, `dH = 4 e₂`. -/
def etaEx : Pair ℝ (Unit ⊕ Unit) (Unit ⊕ Unit) Unit := ⟨of fun i _ => i.elim (fun _ => 2) fun _ => 0, of fun i _ => i.elim (fun _ => 0) fun _ => 4⟩

/-- The factorisations for this step: the matrix is `3 e₁ e₁ᵀ + 4 e₁ e₂ᵀ`, its singular values are `5` and `0`. -/
noncomputable def lpEx : ProjLapack ℝ (Unit ⊕ Unit) (Unit ⊕ Unit) Unit :=
  { qm := fun _ => 1, rm := fun T => T, qn := fun _ => 1, rn := fun T => T, u := fun _ => 1, s := fun _ => Sum.elim (fun _ => 5) fun _ => 0,
    vt := fun _ => fromBlocks (of fun _ _ => 3 / 5) (of fun _ _ => 4 / 5) (of fun _ _ => -4 / 5) (of fun _ _ => 3 / 5) }

theorem lpEx_good : lpEx.Good xEx etaEx := by
  refine ⟨by simp [lpEx], by simp [lpEx], by simp [lpEx], by simp [lpEx], ?_, ?_⟩
  · rintro M rfl
    refine ⟨?_, by simp [lpEx], ?_⟩
    · ext (i | i) (j | j) <;> simp [lpEx, xEx, etaEx, projMid, Matrix.mul_apply, fromCols, fromBlocks, diagonal] <;> norm_num
    · ext (i | i) (j | j) <;> simp [lpEx, Matrix.mul_apply, fromBlocks] <;> norm_num
  · rintro M rfl
    exact ⟨fun i => by cases i <;> simp [lpEx], fun i j => by simp [lpEx]⟩

/-- Instance of the theorems: the step has a result, it is nearest, and a point of the manifold. -/
example : ∃ y, projRetract lpEx xEx etaEx = some y ∧ (∀ z : Pair ℝ (Unit ⊕ Unit) (Unit ⊕ Unit) Unit, gap2 (represented xEx + direction xEx etaEx) (represented y) ≤ gap2 (represented xEx + direction xEx etaEx) (represented z)) ∧
    ∀ (lp' : ProjLapack ℝ (Unit ⊕ Unit) (Unit ⊕ Unit) Unit) (x' η' y' : Pair ℝ (Unit ⊕ Unit) (Unit ⊕ Unit) Unit), lp'.Good x' η' → projRetract lp' x' η' = some y' → represented x' = represented xEx → direction x' η' = direction xEx etaEx → represented y' = represented y := by
  obtain ⟨y, hy⟩ := (C154_defined lpEx xEx etaEx).2 (by simp)
  exact ⟨y, hy, C154_nearest lpEx_good hy, fun lp' x' η' y' ok' hy' hx hη => C154_quotient lpEx_good ok' hy hy' hx hη fun M _ i j => by simp [lpEx]⟩

/-- Factorisations for the zero vector. -/
noncomputable def lpZero : ProjLapack ℝ (Unit ⊕ Unit) (Unit ⊕ Unit) Unit :=
  { qm := fun _ => 1, rm := fun T => T, qn := fun _ => 1, rn := fun T => T, u := fun _ => 1, s := fun _ => Sum.elim (fun _ => 1) fun _ => 0, vt := fun _ => 1 }

/-- Instance of `C154_centre`. -/
example : ∃ y, projRetract lpZero xEx ⟨0, 0⟩ = some y ∧ represented y = represented xEx := by
  obtain ⟨y, hy⟩ := (C154_defined lpZero xEx ⟨0, 0⟩).2 (by simp)
  refine ⟨y, hy, C154_centre ⟨by simp [lpZero], by simp [lpZero], by simp [lpZero], by simp [lpZero], ?_, ?_⟩ hy⟩
  · rintro M rfl
    refine ⟨?_, by simp [lpZero], by simp [lpZero]⟩
    ext (i | i) (j | j) <;> simp [lpZero, xEx, projMid, Matrix.mul_apply, fromCols, fromBlocks, diagonal]
  · rintro M rfl
    exact ⟨fun i => by cases i <;> simp [lpZero], fun i j => by simp [lpZero]⟩

/-- A point of the manifold (the `1 × 1` matrices of rank one) at which `ProjRetraction` writes out of bounds for every vector. -/
example (lp : ProjLapack ℝ Unit Unit Unit) (η : Pair ℝ Unit Unit Unit) : projRetract lp ⟨1, 1⟩ η = none := by
  simp [projRetract]

end Verif.Q2F
