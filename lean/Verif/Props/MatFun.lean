import Verif.Elem.MatFun
import Mathlib.Analysis.Matrix.PosDef
import Mathlib.Analysis.SpecialFunctions.Exponential
import Mathlib.Analysis.Matrix.Spectrum
import Mathlib.LinearAlgebra.FiniteDimensional.Lemmas

/-!
# C94–C97: linear solvers, matrix functions, orthonormal factor, entrywise functions of `Element`
-/

open Matrix

open scoped ComplexOrder

set_option linter.unusedSectionVars false

namespace Verif.MatFun

variable {𝕜 : Type*} [RCLike 𝕜] {n m k : Type*} [Fintype n] [DecidableEq n] [Fintype m] [DecidableEq m]
  [Fintype k] [DecidableEq k]

/-! ## Specification: what LAPACK documents about its outputs -/

/-- `getrf` followed by `getrs` solves `op(A) X = B` for nonsingular `A`. -/
def GetrsOk {F : Type*} (getrf : Matrix n n 𝕜 → F) (getrs : Op → F → Matrix n m 𝕜 → Matrix n m 𝕜) : Prop :=
  ∀ A, IsUnit A.det → ∀ t B, t.app A * getrs t (getrf A) B = B

/-- `trtrs` solves `op(L) X = B` for a lower triangular `L` without zero on the diagonal. -/
def TrtrsOk {N : ℕ} (trtrs : Op → Matrix (Fin N) (Fin N) 𝕜 → Matrix (Fin N) m 𝕜 → Matrix (Fin N) m 𝕜) : Prop :=
  ∀ L, (∀ i j, i < j → L i j = 0) → (∀ i, L i i ≠ 0) → ∀ t B, t.app L * trtrs t L B = B

/-- Upper triangular up to separate entries below the diagonal: the real Schur form. -/
def QuasiUpper {N : ℕ} (T : Matrix (Fin N) (Fin N) 𝕜) : Prop :=
  (∀ i j : Fin N, (j : ℕ) + 1 < i → T i j = 0) ∧
  ∀ i j l : Fin N, (i : ℕ) = j + 1 → (j : ℕ) = l + 1 → T i j = 0 ∨ T j l = 0

/-- `gees`: unitary vectors, quasi-triangular form, product `A`. -/
structure IsSchur {N : ℕ} (A : Matrix (Fin N) (Fin N) 𝕜) (S : Schur (Fin N) 𝕜) : Prop where
  unit : S.vecᴴ * S.vec = 1
  upper : QuasiUpper S.form
  eq : S.vec * S.form * S.vecᴴ = A

/-- `tgsyl` on quasi-triangular pairs whose generalized Sylvester operator is injective. -/
def TgsylOk {N M : ℕ} (tgsyl : Matrix (Fin N) (Fin N) 𝕜 → Matrix (Fin M) (Fin M) 𝕜 → Matrix (Fin N) (Fin M) 𝕜 →
    Matrix (Fin N) (Fin N) 𝕜 → Matrix (Fin M) (Fin M) 𝕜 → Matrix (Fin N) (Fin M) 𝕜 → Tgsyl (Fin N) (Fin M) 𝕜) : Prop :=
  ∀ A B C D E G, QuasiUpper A → QuasiUpper B → QuasiUpper D → QuasiUpper E →
    (∀ R L : Matrix (Fin N) (Fin M) 𝕜, A * R - L * B = 0 → D * R - L * E = 0 → R = 0 ∧ L = 0) →
    0 < (tgsyl A B C D E G).scale ∧
    A * (tgsyl A B C D E G).R - (tgsyl A B C D E G).L * B = ((tgsyl A B C D E G).scale : 𝕜) • C ∧
    D * (tgsyl A B C D E G).R - (tgsyl A B C D E G).L * E = ((tgsyl A B C D E G).scale : 𝕜) • G

/-- The Hermitian matrix that `syev`/`heev` reads off one triangle (the imaginary parts of the
diagonal are ignored). -/
def herm {N : ℕ} : Tri → Matrix (Fin N) (Fin N) 𝕜 → Matrix (Fin N) (Fin N) 𝕜
  | .L, A => of fun i j => if j < i then A i j else if i = j then (RCLike.re (A i i) : 𝕜) else star (A j i)
  | .U, A => of fun i j => if i < j then A i j else if i = j then (RCLike.re (A i i) : 𝕜) else star (A j i)

/-- Unitary eigenvectors and eigenvalues of `S`. -/
structure IsEig (S : Matrix n n 𝕜) (e : Eig n 𝕜) : Prop where
  unit : e.vecsᴴ * e.vecs = 1
  eq : e.vecs * diagonal (fun i => (e.vals i : 𝕜)) * e.vecsᴴ = S

/-- `syev`/`heev` on every input. -/
def SyevOk {N : ℕ} (syev : Tri → Matrix (Fin N) (Fin N) 𝕜 → Eig (Fin N) 𝕜) : Prop :=
  ∀ u A, IsEig (herm u A) (syev u A)

/-- Thin singular value decomposition. -/
structure IsSVD (A : Matrix m n 𝕜) (U : Matrix m k 𝕜) (s : k → ℝ) (Vt : Matrix k n 𝕜) : Prop where
  left : Uᴴ * U = 1
  right : Vt * Vtᴴ = 1
  nonneg : ∀ i, 0 ≤ s i
  eq : U * diagonal (fun i => (s i : 𝕜)) * Vt = A

/-! ## Helper lemmas -/

omit [DecidableEq n] [Fintype n] [DecidableEq m] [Fintype m] in
theorem ext_diag_comm {d : n → 𝕜} {e : m → 𝕜} [DecidableEq n] [DecidableEq m] [Fintype n] [Fintype m]
    (M : Matrix n m 𝕜) (h : ∀ i j, M i j ≠ 0 → d i = e j) : diagonal d * M = M * diagonal e := by
  ext i j
  rw [diagonal_mul, mul_diagonal]
  by_cases h0 : M i j = 0
  · simp [h0]
  · rw [h i j h0, mul_comm]

/-- Two spectral decompositions with the same image under a function that is injective on the eigenvalues are decompositions
of the same matrix. -/
theorem fun_inj {d : n → ℝ} {e : n → ℝ} {V W : Matrix n n 𝕜} (hV : Vᴴ * V = 1) (hW : Wᴴ * W = 1) (f : ℝ → ℝ)
    (hf : ∀ i j, f (d i) = f (e j) → d i = e j)
    (h : V * diagonal (fun i => (f (d i) : 𝕜)) * Vᴴ = W * diagonal (fun i => (f (e i) : 𝕜)) * Wᴴ) :
    V * diagonal (fun i => (d i : 𝕜)) * Vᴴ = W * diagonal (fun i => (e i : 𝕜)) * Wᴴ := by
  have hV' : V * Vᴴ = 1 := mul_eq_one_comm.mp hV
  have hW' : W * Wᴴ = 1 := mul_eq_one_comm.mp hW
  have h1 : diagonal (fun i => (f (d i) : 𝕜)) * (Vᴴ * W) = (Vᴴ * W) * diagonal (fun i => (f (e i) : 𝕜)) := by
    calc diagonal (fun i => (f (d i) : 𝕜)) * (Vᴴ * W)
        = (Vᴴ * V) * diagonal (fun i => (f (d i) : 𝕜)) * (Vᴴ * W) := by rw [hV, Matrix.one_mul]
      _ = Vᴴ * (V * diagonal (fun i => (f (d i) : 𝕜)) * Vᴴ) * W := by simp only [Matrix.mul_assoc]
      _ = Vᴴ * (W * diagonal (fun i => (f (e i) : 𝕜)) * Wᴴ) * W := by rw [h]
      _ = (Vᴴ * W) * diagonal (fun i => (f (e i) : 𝕜)) * (Wᴴ * W) := by simp only [Matrix.mul_assoc]
      _ = _ := by rw [hW, Matrix.mul_one]
  have h2 : diagonal (fun i => (d i : 𝕜)) * (Vᴴ * W) = (Vᴴ * W) * diagonal (fun i => (e i : 𝕜)) := by
    refine ext_diag_comm _ fun i j hij => ?_
    have h3 := congrFun (congrFun h1 i) j
    rw [diagonal_mul, mul_diagonal, mul_comm] at h3
    have h4 := mul_left_cancel₀ hij h3
    rw [hf i j (by exact_mod_cast h4)]
  calc V * diagonal (fun i => (d i : 𝕜)) * Vᴴ
      = V * diagonal (fun i => (d i : 𝕜)) * Vᴴ * (W * Wᴴ) := by rw [hW', Matrix.mul_one]
    _ = V * (diagonal (fun i => (d i : 𝕜)) * (Vᴴ * W)) * Wᴴ := by simp only [Matrix.mul_assoc]
    _ = V * ((Vᴴ * W) * diagonal (fun i => (e i : 𝕜))) * Wᴴ := by rw [h2]
    _ = (V * Vᴴ) * (W * diagonal (fun i => (e i : 𝕜)) * Wᴴ) := by simp only [Matrix.mul_assoc]
    _ = _ := by rw [hV', Matrix.one_mul]

theorem scaleCols_eq (a : n → ℝ) (V : Matrix m n 𝕜) : scaleCols a V = V * diagonal (fun i => (a i : 𝕜)) := by
  ext i j
  simp [scaleCols, mul_diagonal, mul_comm]

theorem eig_isHermitian {S : Matrix n n 𝕜} {e : Eig n 𝕜} (h : IsEig S e) : S.IsHermitian := by
  rw [← h.eq, IsHermitian, conjTranspose_mul, conjTranspose_mul, conjTranspose_conjTranspose, diagonal_conjTranspose, Matrix.mul_assoc]
  congr 3
  ext i
  simp

theorem exp_spectral {V : Matrix n n 𝕜} (hV : Vᴴ * V = 1) (d : n → ℝ) :
    NormedSpace.exp (V * diagonal (fun i => (d i : 𝕜)) * Vᴴ) = V * diagonal (fun i => (Real.exp (d i) : 𝕜)) * Vᴴ := by
  have hV' : V * Vᴴ = 1 := mul_eq_one_comm.mp hV
  have hinv : V⁻¹ = Vᴴ := inv_eq_left_inv hV
  have hu : IsUnit V := (Matrix.isUnit_iff_isUnit_det _).mpr (isUnit_det_of_left_inverse hV)
  rw [← hinv, exp_conj V _ hu, exp_diagonal]
  congr 2
  congr 1
  funext i
  rw [Pi.coe_exp, Real.exp_eq_exp_ℝ]
  exact (NormedSpace.algebraMap_exp_comm (𝔸 := 𝕜) (d i)).symm

/-- The spectral theorem in the form of the code. -/
theorem exists_eig {A : Matrix n n 𝕜} (hA : A.IsHermitian) : ∃ e, IsEig A e := by
  refine ⟨⟨hA.eigenvalues, hA.eigenvectorUnitary⟩, ?_, ?_⟩
  · exact Unitary.coe_star_mul_self hA.eigenvectorUnitary
  · conv_rhs => rw [hA.spectral_theorem, Unitary.conjStarAlgAut_apply]
    rfl

/-- `Hermitian` matrices are determined by their exponential. -/
theorem exp_inj {A B : Matrix n n 𝕜} (hA : A.IsHermitian) (hB : B.IsHermitian) (h : NormedSpace.exp A = NormedSpace.exp B) : A = B := by
  obtain ⟨e, he⟩ := exists_eig hA
  obtain ⟨g, hg⟩ := exists_eig hB
  rw [← he.eq, ← hg.eq] at h ⊢
  rw [exp_spectral he.unit, exp_spectral hg.unit] at h
  exact fun_inj he.unit hg.unit Real.exp (fun i j hij => Real.exp_injective hij) h

theorem eig_posDef {S : Matrix n n 𝕜} {e : Eig n 𝕜} (h : IsEig S e) : S.PosDef ↔ ∀ i, 0 < e.vals i := by
  have hu : IsUnit e.vecs := (Matrix.isUnit_iff_isUnit_det _).mpr (isUnit_det_of_left_inverse h.unit)
  rw [← h.eq, ← star_eq_conjTranspose, IsUnit.posDef_star_right_conjugate_iff hu, posDef_diagonal_iff]
  simp

theorem exp_posDef {A : Matrix n n 𝕜} (hA : A.IsHermitian) : (NormedSpace.exp A).PosDef := by
  obtain ⟨e, he⟩ := exists_eig hA
  have h1 : IsEig (NormedSpace.exp A) ⟨fun i => Real.exp (e.vals i), e.vecs⟩ := by
    refine ⟨he.unit, ?_⟩
    rw [← exp_spectral he.unit, he.eq]
  exact (eig_posDef h1).mpr fun i => Real.exp_pos _

theorem herm_of_isHermitian {N : ℕ} (u : Tri) {A : Matrix (Fin N) (Fin N) 𝕜} (hA : A.IsHermitian) : herm u A = A := by
  have hd : ∀ i, (RCLike.re (A i i) : 𝕜) = A i i := fun i => hA.coe_re_apply_self i
  ext i j
  cases u <;> simp only [herm, of_apply] <;> (by_cases h1 : i = j)
  · subst h1; simp [hd]
  · have := hA.apply i j
    simp [h1, this]
  · subst h1; simp [hd]
  · have := hA.apply i j
    simp [h1, this]

theorem herm_isHermitian {N : ℕ} (u : Tri) (A : Matrix (Fin N) (Fin N) 𝕜) : (herm u A).IsHermitian := by
  have hc : ∀ x : 𝕜, star ((RCLike.re x : 𝕜)) = (RCLike.re x : 𝕜) := fun x => by simp
  ext i j
  rcases lt_trichotomy i j with h | h | h
  · have h' := not_lt.mpr h.le
    have h'' := h.ne
    have h3 := h.ne'
    cases u <;> simp [herm, h, h', h'', h3]
  · subst h; cases u <;> simp [herm]
  · have h' := not_lt.mpr h.le
    have h'' := h.ne
    have h3 := h.ne'
    cases u <;> simp [herm, h, h', h'', h3]

/-! ## C94: linear systems -/

theorem mul_getrs {F : Type*} {getrf : Matrix n n 𝕜 → F} {getrs : Op → F → Matrix n m 𝕜 → Matrix n m 𝕜} (h : GetrsOk getrf getrs)
    (t : Op) {A : Matrix n n 𝕜} (hA : IsUnit A.det) (ht : t.app A = Aᴴ) (B : Matrix m n 𝕜) : solveRight t getrf getrs B A * A = B := by
  have h1 := h A hA t Bᴴ
  rw [ht] at h1
  have h2 := congrArg conjTranspose h1
  rw [conjTranspose_mul, conjTranspose_conjTranspose, conjTranspose_conjTranspose] at h2
  exact h2

theorem unique_left {A : Matrix n n 𝕜} (hA : IsUnit A.det) {X Y : Matrix n m 𝕜} (h : A * X = A * Y) : X = Y := by
  have := congrArg (A⁻¹ * ·) h
  simpa [← Matrix.mul_assoc, nonsing_inv_mul A hA] using this

/-- `left % right` is the only solution of `left X = right` and `left / right` the only solution of `X right = left`, for real and for complex
matrices with nonsingular divisor. -/
theorem C94_divisions :
    (∀ {F : Type} {n m : ℕ} (getrf : Matrix (Fin n) (Fin n) ℝ → F) (getrs : Op → F → Matrix (Fin n) (Fin m) ℝ → Matrix (Fin n) (Fin m) ℝ),
      GetrsOk getrf getrs → ∀ A : Matrix (Fin n) (Fin n) ℝ, IsUnit A.det →
        (∀ B X : Matrix (Fin n) (Fin m) ℝ, A * X = B ↔ X = solveLeft getrf getrs A B) ∧ (∀ B X : Matrix (Fin m) (Fin n) ℝ, X * A = B ↔ X = slashR getrf getrs B A)) ∧
    (∀ {F : Type} {n m : ℕ} (getrf : Matrix (Fin n) (Fin n) ℂ → F) (getrs : Op → F → Matrix (Fin n) (Fin m) ℂ → Matrix (Fin n) (Fin m) ℂ),
      GetrsOk getrf getrs → ∀ A : Matrix (Fin n) (Fin n) ℂ, IsUnit A.det →
        (∀ B X : Matrix (Fin n) (Fin m) ℂ, A * X = B ↔ X = solveLeft getrf getrs A B) ∧ (∀ B X : Matrix (Fin m) (Fin n) ℂ, X * A = B ↔ X = slashC getrf getrs B A)) := by
  have key : ∀ {𝕜 : Type} [RCLike 𝕜] {F : Type} {n m : ℕ} (t : Op) (getrf : Matrix (Fin n) (Fin n) 𝕜 → F)
      (getrs : Op → F → Matrix (Fin n) (Fin m) 𝕜 → Matrix (Fin n) (Fin m) 𝕜), GetrsOk getrf getrs → ∀ A : Matrix (Fin n) (Fin n) 𝕜, IsUnit A.det → t.app A = Aᴴ →
        (∀ B X : Matrix (Fin n) (Fin m) 𝕜, A * X = B ↔ X = solveLeft getrf getrs A B) ∧ (∀ B X : Matrix (Fin m) (Fin n) 𝕜, X * A = B ↔ X = solveRight t getrf getrs B A) := by
    intro 𝕜 _ F n m t getrf getrs h A hA ht
    refine ⟨fun B X => ?_, fun B X => ?_⟩
    · have h1 : A * solveLeft getrf getrs A B = B := h A hA .N B
      exact ⟨fun hX => unique_left hA (hX.trans h1.symm), fun hX => hX ▸ h1⟩
    · have h1 := mul_getrs h t hA ht B
      refine ⟨fun hX => ?_, fun hX => hX ▸ h1⟩
      have := congrArg (· * A⁻¹) (hX.trans h1.symm)
      simpa [Matrix.mul_assoc, mul_nonsing_inv A hA] using this
  exact ⟨fun getrf getrs h A hA => key .T getrf getrs h A hA (by ext i j; simp [Op.app]), fun getrf getrs h A hA => key .C getrf getrs h A hA rfl⟩

theorem lower_det {N : ℕ} (L : Matrix (Fin N) (Fin N) 𝕜) (h : ∀ i, L i i ≠ 0) : IsUnit (lower L).det := by
  have h1 : (lower L).det = ∏ i, L i i := by
    rw [det_of_isLowerTriangular]
    · simp [lower]
    · intro i j hij
      have : i < j := hij
      simp [lower, not_le.mpr this]
  rw [h1]
  exact (Finset.prod_ne_zero_iff.mpr fun i _ => h i).isUnit

/-- `TriangleLinSol` reads the lower triangle only.  Without a zero on the diagonal it returns the only solution of the
triangular system, with a zero it returns the right-hand side unchanged. -/
theorem C94_triangular {N : ℕ} {trtrs : Op → Matrix (Fin N) (Fin N) 𝕜 → Matrix (Fin N) m 𝕜 → Matrix (Fin N) m 𝕜} (h : TrtrsOk trtrs)
    (t : Op) (L : Matrix (Fin N) (Fin N) 𝕜) (B : Matrix (Fin N) m 𝕜) :
    ((∀ i, L i i ≠ 0) → ∀ X, t.app (lower L) * X = B ↔ X = triLinSol trtrs t L B) ∧
    ((∃ i, L i i = 0) → triLinSol trtrs t L B = B) ∧
    (∀ L' : Matrix (Fin N) (Fin N) 𝕜, (∀ i j, j ≤ i → L' i j = L i j) → triLinSol trtrs t L' B = triLinSol trtrs t L B) := by
  refine ⟨fun hd X => ?_, fun hz => by simp [triLinSol, hz], fun L' hL => ?_⟩
  · have hn : ¬ ∃ i, L i i = 0 := fun ⟨i, hi⟩ => hd i hi
    have h1 : t.app (lower L) * triLinSol trtrs t L B = B := by
      rw [triLinSol, if_neg hn]
      refine h _ (fun i j hij => ?_) (fun i => ?_) t B
      · simp [lower, not_le.mpr hij]
      · simpa [lower] using hd i
    have hu : IsUnit (t.app (lower L)).det := by
      cases t
      · exact lower_det L hd
      · simpa [Op.app] using lower_det L hd
      · simpa [Op.app, det_conjTranspose] using lower_det L hd
    exact ⟨fun hX => unique_left hu (hX.trans h1.symm), fun hX => hX ▸ h1⟩
  · have h1 : lower L' = lower L := by
      ext i j
      by_cases hij : j ≤ i <;> simp [lower, hij, hL]
    have h2 : (∃ i, L' i i = 0) ↔ ∃ i, L i i = 0 := by simp [hL]
    simp only [triLinSol, h1, h2]

/-- Two triangular solves with a Cholesky factor solve the original system. -/
theorem C94_cholesky_solve {N : ℕ} {trtrs : Op → Matrix (Fin N) (Fin N) 𝕜 → Matrix (Fin N) m 𝕜 → Matrix (Fin N) m 𝕜} (h : TrtrsOk trtrs)
    {A L : Matrix (Fin N) (Fin N) 𝕜} (hL : ∀ i j, i < j → L i j = 0) (hA : A = L * Lᴴ) (hp : A.PosDef) (B : Matrix (Fin N) m 𝕜) :
    A * triLinSol trtrs .C L (triLinSol trtrs .N L B) = B := by
  have hlow : lower L = L := by
    ext i j
    by_cases hij : j ≤ i
    · simp [lower, hij]
    · simp [lower, hij, hL i j (not_le.mp hij)]
  have hdet : L.det = ∏ i, L i i := by
    rw [det_of_isLowerTriangular]
    intro i j hij
    exact hL i j hij
  have hd : ∀ i, L i i ≠ 0 := by
    have h0 : A.det ≠ 0 := hp.det_pos.ne'
    rw [hA, det_mul, hdet] at h0
    have := left_ne_zero_of_mul h0
    exact fun i => Finset.prod_ne_zero_iff.mp this i (Finset.mem_univ i)
  have h1 := ((C94_triangular h .N L B).1 hd _).mpr rfl
  have h2 := ((C94_triangular h .C L (triLinSol trtrs .N L B)).1 hd _).mpr rfl
  rw [hlow] at h1 h2
  simp only [Op.app] at h1 h2
  rw [hA, Matrix.mul_assoc, h2, h1]

theorem quasi_one {N : ℕ} : QuasiUpper (1 : Matrix (Fin N) (Fin N) 𝕜) := by
  refine ⟨fun i j hij => one_apply_ne ?_, fun i j l hij _ => Or.inl (one_apply_ne ?_)⟩
  · rintro rfl; omega
  · rintro rfl; omega

theorem quasi_smul {N : ℕ} (c : 𝕜) {T : Matrix (Fin N) (Fin N) 𝕜} (h : QuasiUpper T) : QuasiUpper (c • T) := by
  refine ⟨fun i j hij => by simp [h.1 i j hij], fun i j l hij hjl => ?_⟩
  rcases h.2 i j l hij hjl with h0 | h0 <;> simp [h0]

/-- `C.SYL(A, B)` is the only solution of `A X + X B = C` whenever the equation has at most one. -/
theorem C94_sylvester {N M : ℕ} {tgsyl : Matrix (Fin N) (Fin N) 𝕜 → Matrix (Fin M) (Fin M) 𝕜 → Matrix (Fin N) (Fin M) 𝕜 →
    Matrix (Fin N) (Fin N) 𝕜 → Matrix (Fin M) (Fin M) 𝕜 → Matrix (Fin N) (Fin M) 𝕜 → Tgsyl (Fin N) (Fin M) 𝕜} (h : TgsylOk tgsyl)
    {A : Matrix (Fin N) (Fin N) 𝕜} {B : Matrix (Fin M) (Fin M) 𝕜} {SA : Schur (Fin N) 𝕜} {SB : Schur (Fin M) 𝕜} (hA : IsSchur A SA)
    (hB : IsSchur B SB) (hinj : ∀ X : Matrix (Fin N) (Fin M) 𝕜, A * X + X * B = 0 → X = 0) (C X : Matrix (Fin N) (Fin M) 𝕜) :
    A * X + X * B = C ↔ X = syl tgsyl SA SB C := by
  have hA' : SA.vec * SA.vecᴴ = 1 := mul_eq_one_comm.mp hA.unit
  have hB' : SB.vec * SB.vecᴴ = 1 := mul_eq_one_comm.mp hB.unit
  -- the equation in Schur coordinates
  have tr : ∀ R : Matrix (Fin N) (Fin M) 𝕜, A * (SA.vec * R * SB.vecᴴ) + (SA.vec * R * SB.vecᴴ) * B =
      SA.vec * (SA.form * R + R * SB.form) * SB.vecᴴ := by
    intro R
    rw [← hA.eq, ← hB.eq]
    calc _ = SA.vec * SA.form * (SA.vecᴴ * SA.vec) * R * SB.vecᴴ + SA.vec * R * (SB.vecᴴ * SB.vec) * SB.form * SB.vecᴴ := by
          simp only [Matrix.mul_assoc]
      _ = _ := by
          rw [hA.unit, hB.unit]
          simp only [Matrix.mul_one, Matrix.mul_add, Matrix.add_mul, Matrix.mul_assoc]
  have hinj' : ∀ R L : Matrix (Fin N) (Fin M) 𝕜, SA.form * R - L * ((-1 : 𝕜) • SB.form) = 0 →
      (1 : Matrix (Fin N) (Fin N) 𝕜) * R - L * (1 : Matrix (Fin M) (Fin M) 𝕜) = 0 → R = 0 ∧ L = 0 := by
    intro R L h1 h2
    rw [Matrix.one_mul, Matrix.mul_one, sub_eq_zero] at h2
    subst h2
    have h3 : SA.form * R + R * SB.form = 0 := by simpa using h1
    have h4 := hinj (SA.vec * R * SB.vecᴴ) (by rw [tr, h3]; simp)
    have h5 : SA.vecᴴ * (SA.vec * R * SB.vecᴴ) * SB.vec = R := by
      calc _ = (SA.vecᴴ * SA.vec) * R * (SB.vecᴴ * SB.vec) := by simp only [Matrix.mul_assoc]
        _ = R := by rw [hA.unit, hB.unit, Matrix.one_mul, Matrix.mul_one]
    have h6 : R = 0 := by rw [← h5, h4]; simp
    exact ⟨h6, h6⟩
  obtain ⟨hs, e1, e2⟩ := h SA.form ((-1 : 𝕜) • SB.form) (SA.vecᴴ * C * SB.vec) 1 1 0 hA.upper (quasi_smul _ hB.upper) quasi_one quasi_one hinj'
  have hsol : A * syl tgsyl SA SB C + syl tgsyl SA SB C * B = C := by
    set r := tgsyl SA.form ((-1 : 𝕜) • SB.form) (SA.vecᴴ * C * SB.vec) 1 1 0 with hr
    have hL : r.R = r.L := by
      have := e2
      rwa [Matrix.one_mul, Matrix.mul_one, smul_zero, sub_eq_zero] at this
    have e3 : SA.form * r.R + r.R * SB.form = (r.scale : 𝕜) • (SA.vecᴴ * C * SB.vec) := by
      rw [← e1, ← hL]; simp
    have hs' : (r.scale : 𝕜) ≠ 0 := by exact_mod_cast hs.ne'
    have hdef : syl tgsyl SA SB C = ((r.scale : 𝕜)⁻¹) • (SA.vec * r.R * SB.vecᴴ) := rfl
    rw [hdef, Matrix.mul_smul, Matrix.smul_mul, ← smul_add, tr, e3, Matrix.mul_smul, Matrix.smul_mul, smul_smul, inv_mul_cancel₀ hs', one_smul]
    calc _ = (SA.vec * SA.vecᴴ) * C * (SB.vec * SB.vecᴴ) := by simp only [Matrix.mul_assoc]
      _ = C := by rw [hA', hB', Matrix.one_mul, Matrix.mul_one]
  refine ⟨fun hX => ?_, fun hX => hX ▸ hsol⟩
  rw [← sub_eq_zero]
  apply hinj
  rw [Matrix.mul_sub, Matrix.sub_mul]
  rw [← sub_eq_zero.mpr (hX.trans hsol.symm)]
  abel

/-- The equation has at most one solution when both coefficients are positive definite: the case of every caller that
passes a Gram matrix. -/
theorem C94_sylvester_posDef {A : Matrix n n 𝕜} {B : Matrix m m 𝕜} (hA : A.PosDef) (hB : B.PosDef) (X : Matrix n m 𝕜)
    (h : A * X + X * B = 0) : X = 0 := by
  have h1 : (Xᴴ * A * X).trace + (X * B * Xᴴ).trace = 0 := by
    have h2 : (Xᴴ * (A * X + X * B)).trace = 0 := by rw [h]; simp
    rw [Matrix.mul_add, trace_add, ← Matrix.mul_assoc, ← Matrix.mul_assoc] at h2
    rw [Matrix.trace_mul_comm (X * B) Xᴴ, ← Matrix.mul_assoc]
    exact h2
  have p1 : (Xᴴ * A * X).PosSemidef := hA.posSemidef.conjTranspose_mul_mul_same X
  have p2 : (X * B * Xᴴ).PosSemidef := hB.posSemidef.mul_mul_conjTranspose_same X
  have h3 : (Xᴴ * A * X).trace = 0 := by
    have a := p1.trace_nonneg
    have b := p2.trace_nonneg
    exact ((add_eq_zero_iff_of_nonneg a b).mp h1).1
  have h4 : Xᴴ * A * X = 0 := p1.trace_eq_zero_iff.mp h3
  ext i j
  by_contra hij
  have hx : X.col j ≠ 0 := fun h0 => hij (congrFun h0 i)
  have h5 := hA.dotProduct_mulVec_pos hx
  have h6 : star (X.col j) ⬝ᵥ (A *ᵥ X.col j) = (Xᴴ * A * X) j j := by
    rw [Matrix.mul_assoc, Matrix.mul_apply]
    rfl
  rw [h6, h4] at h5
  simp at h5

/-! ## C95: exponential, logarithm and the cache of decompositions -/

/-- The matrix the element holds after the calls. -/
def lastWritten (A : Matrix n n 𝕜) : List (Call n 𝕜) → Matrix n n 𝕜
  | [] => A
  | .write M :: cs => lastWritten M cs
  | _ :: cs => lastWritten A cs

/-- The call names no other triangle. -/
def Call.only (u : Tri) : Call n 𝕜 → Prop
  | .eig _ v => v = u
  | .exp v => v = u
  | .log v => v = u
  | _ => True

/-- The call writes no matrix that is not Hermitian. -/
def Call.hermitian : Call n 𝕜 → Prop
  | .write M => M.IsHermitian
  | _ => True

/-- The cached fields belong to the current matrix. -/
structure Coherent {N : ℕ} {F : Type*} (getrf : Matrix (Fin N) (Fin N) 𝕜 → F) (u : Tri) (x : El (Fin N) 𝕜 F) : Prop where
  eig : ∀ w, x.eigVal = some w → ∃ V, IsEig (herm u x.mat) ⟨w, V⟩ ∧ ∀ V', x.eigVec = some V' → V' = V
  none : x.eigVal = none → x.eigVec = none
  lu : ∀ f, x.lu = some f → f = getrf x.mat

section
variable {N : ℕ} {F : Type*} {syev : Tri → Matrix (Fin N) (Fin N) 𝕜 → Eig (Fin N) 𝕜} {getrf : Matrix (Fin N) (Fin N) 𝕜 → F}

theorem coherent_fresh (u : Tri) (A : Matrix (Fin N) (Fin N) 𝕜) : Coherent getrf u ({ mat := A } : El (Fin N) 𝕜 F) :=
  ⟨by simp, by simp, by simp⟩

theorem eigenDecomSym_mat (j : Bool) (v : Tri) (x : El (Fin N) 𝕜 F) : (eigenDecomSym syev j v x).mat = x.mat := by
  unfold eigenDecomSym
  by_cases h1 : (x.eigVal.isSome && !j) = true
  · rw [if_pos h1]
  · rw [if_neg h1]
    by_cases h2 : (x.eigVal.isSome && x.eigVec.isSome) = true
    · rw [if_pos h2]
    · rw [if_neg h2]

theorem coherent_eig (hs : SyevOk syev) {u v : Tri} (j : Bool) {x : El (Fin N) 𝕜 F} (hv : herm v x.mat = herm u x.mat)
    (h : Coherent getrf u x) : Coherent getrf u (eigenDecomSym syev j v x) := by
  unfold eigenDecomSym
  by_cases h1 : (x.eigVal.isSome && !j) = true
  · rwa [if_pos h1]
  · rw [if_neg h1]
    by_cases h2 : (x.eigVal.isSome && x.eigVec.isSome) = true
    · rwa [if_pos h2]
    · rw [if_neg h2]
      refine ⟨fun w hw => ⟨(syev v x.mat).vecs, ?_, fun V' hV' => ?_⟩, by simp, h.lu⟩
      · simp only [Option.some.injEq] at hw
        subst hw
        have := hs v x.mat
        rw [hv] at this
        exact this
      · simp only at hV'
        cases j with
        | true => simpa using hV'.symm
        | false =>
          simp only [Bool.not_false, Bool.and_true, Bool.not_eq_true, Option.isSome_eq_false_iff, Option.isNone_iff_eq_none] at h1
          simp [h.none h1] at hV'

theorem eig_fields (j : Tri) (x : El (Fin N) 𝕜 F) :
    ∃ V w, (eigenDecomSym syev true j x).eigVec = some V ∧ (eigenDecomSym syev true j x).eigVal = some w := by
  unfold eigenDecomSym
  simp only [Bool.not_true, Bool.and_false, Bool.false_eq_true, if_false]
  by_cases h2 : (x.eigVal.isSome && x.eigVec.isSome) = true
  · rw [if_pos h2]
    simp only [Bool.and_eq_true, Option.isSome_iff_exists] at h2
    obtain ⟨⟨w, hw⟩, ⟨V, hV⟩⟩ := h2
    exact ⟨V, w, hV, hw⟩
  · rw [if_neg h2]
    exact ⟨_, _, rfl, rfl⟩

theorem expSym_fst (v : Tri) (x : El (Fin N) 𝕜 F) : (expSym syev v x).1 = eigenDecomSym syev true v x := by
  obtain ⟨V, w, hV, hw⟩ := eig_fields (syev := syev) v x
  simp [expSym, hV, hw]

theorem logSym_fst (v : Tri) (x : El (Fin N) 𝕜 F) : (logSym syev v x).1 = eigenDecomSym syev true v x := by
  obtain ⟨V, w, hV, hw⟩ := eig_fields (syev := syev) v x
  simp [logSym, hV, hw]

theorem step_mat (x : El (Fin N) 𝕜 F) (c : Call (Fin N) 𝕜) (cs : List (Call (Fin N) 𝕜)) :
    lastWritten x.mat (c :: cs) = lastWritten (step syev getrf x c).mat cs := by
  cases c with
  | eig j v => simp [step, lastWritten, eigenDecomSym_mat]
  | exp v => simp [step, lastWritten, expSym_fst, eigenDecomSym_mat]
  | log v => simp [step, lastWritten, logSym_fst, eigenDecomSym_mat]
  | lu =>
    simp only [step, lastWritten, luDecom]
    by_cases h : x.lu.isSome = true <;> simp [h]
  | write M => rfl

theorem run_mat (x : El (Fin N) 𝕜 F) (cs : List (Call (Fin N) 𝕜)) : (runCalls syev getrf x cs).mat = lastWritten x.mat cs := by
  induction cs generalizing x with
  | nil => rfl
  | cons c cs ih =>
    rw [step_mat (syev := syev) (getrf := getrf), ← ih]
    rfl

theorem coherent_step (hs : SyevOk syev) {u : Tri} {x : El (Fin N) 𝕜 F} {c : Call (Fin N) 𝕜} (hc : c.only u ∨ x.mat.IsHermitian)
    (h : Coherent getrf u x) : Coherent getrf u (step syev getrf x c) := by
  have key : ∀ v, (v = u ∨ x.mat.IsHermitian) → herm v x.mat = herm u x.mat := by
    rintro v (rfl | hh)
    · rfl
    · rw [herm_of_isHermitian v hh, herm_of_isHermitian u hh]
  cases c with
  | eig j v => exact coherent_eig hs j (key v hc) h
  | exp v =>
    rw [step, expSym_fst]
    exact coherent_eig hs true (key v hc) h
  | log v =>
    rw [step, logSym_fst]
    exact coherent_eig hs true (key v hc) h
  | lu =>
    rw [step, luDecom]
    by_cases hl : x.lu.isSome = true
    · rwa [if_pos hl]
    · rw [if_neg hl]
      exact ⟨h.eig, h.none, fun f hf => by simpa using hf.symm⟩
  | write M => exact coherent_fresh u M

theorem coherent_run (hs : SyevOk syev) {u : Tri} {x : El (Fin N) 𝕜 F} (cs : List (Call (Fin N) 𝕜))
    (hc : (∀ c ∈ cs, c.only u) ∨ (x.mat.IsHermitian ∧ ∀ c ∈ cs, c.hermitian)) (h : Coherent getrf u x) :
    Coherent getrf u (runCalls syev getrf x cs) := by
  induction cs generalizing x with
  | nil => exact h
  | cons c cs ih =>
    refine ih (x := step syev getrf x c) ?_ (coherent_step hs ?_ h)
    · rcases hc with hc | ⟨hx, hc⟩
      · exact Or.inl fun c' hc' => hc c' (List.mem_cons_of_mem _ hc')
      · refine Or.inr ⟨?_, fun c' hc' => hc c' (List.mem_cons_of_mem _ hc')⟩
        have h1 := hc c (List.mem_cons_self ..)
        have h2 := step_mat (syev := syev) (getrf := getrf) x c []
        cases c with
        | write M => exact h1
        | _ =>
          simp only [lastWritten] at h2
          rw [← h2]
          exact hx
    · rcases hc with hc | ⟨hx, _⟩
      · exact Or.inl (hc c (List.mem_cons_self ..))
      · exact Or.inr hx

/-- The decomposition that the next `ExpSym`/`LogSym` uses. -/
theorem eig_of_coherent (hs : SyevOk syev) (u : Tri) {x : El (Fin N) 𝕜 F} (h : Coherent getrf u x) :
    ∃ V w, (eigenDecomSym syev true u x).eigVec = some V ∧ (eigenDecomSym syev true u x).eigVal = some w ∧ IsEig (herm u x.mat) ⟨w, V⟩ := by
  obtain ⟨V, w, hV, hw⟩ := eig_fields (syev := syev) u x
  obtain ⟨V', h1, h2⟩ := (coherent_eig hs true rfl h).eig w hw
  rw [eigenDecomSym_mat] at h1
  refine ⟨V, w, hV, hw, ?_⟩
  rw [h2 V hV]
  exact h1

/-- **Exponential.** After any sequence of decompositions, exponentials, logarithms and writes that either names one triangle only or
writes Hermitian matrices only, `ExpSym` returns the matrix exponential of the Hermitian matrix stored in the named triangle. -/
theorem C95_exp (hs : SyevOk syev) (u : Tri) (A : Matrix (Fin N) (Fin N) 𝕜) (cs : List (Call (Fin N) 𝕜))
    (hc : (∀ c ∈ cs, c.only u) ∨ (A.IsHermitian ∧ ∀ c ∈ cs, c.hermitian)) :
    (expSym syev u (runCalls syev getrf { mat := A } cs)).2 = some (NormedSpace.exp (herm u (lastWritten A cs))) := by
  obtain ⟨V, w, hV, hw, he⟩ := eig_of_coherent hs u (coherent_run (getrf := getrf) (x := { mat := A }) hs cs hc (coherent_fresh u A))
  rw [run_mat] at he
  simp only [expSym, hV, hw]
  rw [scaleCols_eq, ← exp_spectral he.unit, he.eq]

/-- **Logarithm.** Under the same conditions, for a positive definite matrix `LogSym` returns its only Hermitian logarithm. -/
theorem C95_log (hs : SyevOk syev) (u : Tri) (A : Matrix (Fin N) (Fin N) 𝕜) (cs : List (Call (Fin N) 𝕜))
    (hc : (∀ c ∈ cs, c.only u) ∨ (A.IsHermitian ∧ ∀ c ∈ cs, c.hermitian)) (hp : (herm u (lastWritten A cs)).PosDef) :
    ∃ L, (logSym syev u (runCalls syev getrf { mat := A } cs)).2 = some L ∧ L.IsHermitian ∧ NormedSpace.exp L = herm u (lastWritten A cs) ∧
      ∀ L' : Matrix (Fin N) (Fin N) 𝕜, L'.IsHermitian → NormedSpace.exp L' = herm u (lastWritten A cs) → L' = L := by
  obtain ⟨V, w, hV, hw, he⟩ := eig_of_coherent hs u (coherent_run (getrf := getrf) (x := { mat := A }) hs cs hc (coherent_fresh u A))
  rw [run_mat] at he
  have hpos := (eig_posDef he).mp hp
  have hn : ¬ ∃ i, w i ≤ 0 := fun ⟨i, hi⟩ => absurd (hpos i) (not_lt.mpr hi)
  have hL : IsEig (scaleCols (fun i => Real.log (w i)) V * Vᴴ) ⟨fun i => Real.log (w i), V⟩ := ⟨he.unit, by rw [scaleCols_eq]⟩
  have hexp : NormedSpace.exp (scaleCols (fun i => Real.log (w i)) V * Vᴴ) = herm u (lastWritten A cs) := by
    rw [scaleCols_eq, exp_spectral he.unit, ← he.eq]
    simp only
    congr 3
    funext i
    rw [Real.exp_log (hpos i)]
  refine ⟨_, ?_, eig_isHermitian hL, hexp, fun L' h1 h2 => exp_inj h1 (eig_isHermitian hL) (h2.trans hexp.symm)⟩
  simp only [logSym, hV, hw]
  rw [if_neg hn]

/-- A matrix that is not positive definite is returned unchanged by `LogSym`, and no Hermitian matrix would have been a
logarithm. -/
theorem C95_log_refused (hs : SyevOk syev) (u : Tri) (A : Matrix (Fin N) (Fin N) 𝕜) (cs : List (Call (Fin N) 𝕜))
    (hc : (∀ c ∈ cs, c.only u) ∨ (A.IsHermitian ∧ ∀ c ∈ cs, c.hermitian)) (hp : ¬ (herm u (lastWritten A cs)).PosDef) :
    (logSym syev u (runCalls syev getrf { mat := A } cs)).2 = some (lastWritten A cs) ∧
    ∀ L : Matrix (Fin N) (Fin N) 𝕜, L.IsHermitian → NormedSpace.exp L ≠ herm u (lastWritten A cs) := by
  obtain ⟨V, w, hV, hw, he⟩ := eig_of_coherent hs u (coherent_run (getrf := getrf) (x := { mat := A }) hs cs hc (coherent_fresh u A))
  rw [run_mat] at he
  refine ⟨?_, fun L hL h => hp (h ▸ exp_posDef hL)⟩
  have hn : ∃ i, w i ≤ 0 := by
    rw [eig_posDef he] at hp
    push Not at hp
    exact hp
  simp only [logSym, hV, hw]
  rw [if_pos hn, eigenDecomSym_mat, run_mat]

/-- `LogSym` inverts `ExpSym` and, on positive definite matrices, `ExpSym` inverts `LogSym`, whatever triangles are named. -/
theorem C95_inverse (hs : SyevOk syev) (u v : Tri) {A : Matrix (Fin N) (Fin N) 𝕜} (hA : A.IsHermitian) :
    (∃ E, (expSym syev u ({ mat := A } : El (Fin N) 𝕜 Unit)).2 = some E ∧ (logSym syev v ({ mat := E } : El (Fin N) 𝕜 Unit)).2 = some A) ∧
    (A.PosDef → ∃ L, (logSym syev u ({ mat := A } : El (Fin N) 𝕜 Unit)).2 = some L ∧ (expSym syev v ({ mat := L } : El (Fin N) 𝕜 Unit)).2 = some A) := by
  have he : ∀ (t : Tri) (B : Matrix (Fin N) (Fin N) 𝕜), B.IsHermitian →
      (expSym syev t ({ mat := B } : El (Fin N) 𝕜 Unit)).2 = some (NormedSpace.exp B) := by
    intro t B hB
    have := C95_exp (getrf := fun _ => ()) hs t B [] (Or.inl (by simp))
    simpa [lastWritten, herm_of_isHermitian t hB, runCalls] using this
  have hl : ∀ (t : Tri) (B : Matrix (Fin N) (Fin N) 𝕜), B.IsHermitian → B.PosDef →
      ∃ L, (logSym syev t ({ mat := B } : El (Fin N) 𝕜 Unit)).2 = some L ∧ L.IsHermitian ∧ NormedSpace.exp L = B := by
    intro t B hB hp
    obtain ⟨L, h1, h2, h3, _⟩ := C95_log (getrf := fun _ => ()) hs t B [] (Or.inl (by simp))
      (by simpa [lastWritten, herm_of_isHermitian t hB] using hp)
    exact ⟨L, by simpa [runCalls] using h1, h2, by simpa [lastWritten, herm_of_isHermitian t hB] using h3⟩
  refine ⟨⟨_, he u A hA, ?_⟩, fun hp => ?_⟩
  · obtain ⟨L, h1, h2, h3⟩ := hl v _ (exp_posDef hA).isHermitian (exp_posDef hA)
    rw [h1, exp_inj h2 hA h3]
  · obtain ⟨L, h1, h2, h3⟩ := hl u A hA hp
    exact ⟨L, h1, by rw [he v L h2, h3]⟩

theorem lu_run (x : El (Fin N) 𝕜 F) (cs : List (Call (Fin N) 𝕜)) (h : ∀ f, x.lu = some f → f = getrf x.mat) :
    ∀ f, (runCalls syev getrf x cs).lu = some f → f = getrf (runCalls syev getrf x cs).mat := by
  have hd : ∀ j v (y : El (Fin N) 𝕜 F), (eigenDecomSym syev j v y).lu = y.lu := by
    intro j v y
    unfold eigenDecomSym
    by_cases h1 : (y.eigVal.isSome && !j) = true
    · rw [if_pos h1]
    · rw [if_neg h1]
      by_cases h2 : (y.eigVal.isSome && y.eigVec.isSome) = true
      · rw [if_pos h2]
      · rw [if_neg h2]
  induction cs generalizing x with
  | nil => exact h
  | cons c cs ih =>
    refine ih (x := step syev getrf x c) ?_
    cases c with
    | eig j v => simpa [step, hd, eigenDecomSym_mat] using h
    | exp v => simpa [step, expSym_fst, hd, eigenDecomSym_mat] using h
    | log v => simpa [step, logSym_fst, hd, eigenDecomSym_mat] using h
    | lu =>
      rw [step, luDecom]
      by_cases hl : x.lu.isSome = true
      · rwa [if_pos hl]
      · rw [if_neg hl]
        intro f hf
        simpa using hf.symm
    | write M => simp [step]

/-- The factors that the next division by the element uses are those of its current matrix, whatever was called before. -/
theorem C95_lu (A : Matrix (Fin N) (Fin N) 𝕜) (cs : List (Call (Fin N) 𝕜)) :
    (luDecom getrf (runCalls syev getrf { mat := A } cs)).lu = some (getrf (lastWritten A cs)) := by
  have h := lu_run (syev := syev) (getrf := getrf) { mat := A } cs (by simp)
  rw [luDecom]
  by_cases hl : (runCalls syev getrf { mat := A } cs).lu.isSome = true
  · rw [if_pos hl]
    obtain ⟨f, hf⟩ := Option.isSome_iff_exists.mp hl
    rw [hf, h f hf, run_mat]
  · rw [if_neg hl]
    simp [run_mat]

end

/-- The cache forgets which triangle it was computed from: after `ExpSym("L")` the call `ExpSym("U")` of the same element does not return the
exponential of the upper triangle. -/
theorem C95_cache_ignores_triangle {F : Type*} (getrf : Matrix (Fin 2) (Fin 2) ℝ → F) {syev : Tri → Matrix (Fin 2) (Fin 2) ℝ → Eig (Fin 2) ℝ}
    (hs : SyevOk syev) :
    ∃ A : Matrix (Fin 2) (Fin 2) ℝ,
      (expSym syev .U (runCalls syev getrf { mat := A } [.exp .L])).2 ≠ some (NormedSpace.exp (herm .U A)) ∧
      (expSym syev .U (runCalls syev getrf { mat := A } [])).2 = some (NormedSpace.exp (herm .U A)) := by
  refine ⟨!![0, 1; 0, 0], ?_, C95_exp hs .U _ [] (Or.inl (by simp))⟩
  have h1 := C95_exp (getrf := getrf) hs .L (!![0, 1; 0, 0] : Matrix (Fin 2) (Fin 2) ℝ) [.exp .L] (Or.inl (by simp [Call.only]))
  have h2 : (expSym syev .U (runCalls syev getrf { mat := !![0, 1; 0, 0] } [.exp .L])).2 =
      (expSym syev .L (runCalls syev getrf { mat := !![0, 1; 0, 0] } [.exp .L])).2 := by
    simp only [runCalls, List.foldl_cons, List.foldl_nil, step, expSym_fst]
    have key : ∀ v, eigenDecomSym syev true v (eigenDecomSym syev true .L ({ mat := !![0, 1; 0, 0] } : El (Fin 2) ℝ F)) =
        eigenDecomSym syev true .L { mat := !![0, 1; 0, 0] } := by
      intro v
      simp [eigenDecomSym]
    simp only [expSym, key]
  rw [h2, h1]
  intro h
  have h3 := exp_inj (herm_isHermitian _ _) (herm_isHermitian _ _) (Option.some.inj h)
  have h4 := congrFun (congrFun h3 0) 1
  simp [herm, lastWritten] at h4

/-- Routines that do what LAPACK documents exist, so the hypotheses above can be met. -/
theorem syev_exists (N : ℕ) : ∃ syev : Tri → Matrix (Fin N) (Fin N) 𝕜 → Eig (Fin N) 𝕜, SyevOk syev :=
  ⟨fun u A => (exists_eig (herm_isHermitian u A)).choose, fun u A => (exists_eig (herm_isHermitian u A)).choose_spec⟩

theorem getrs_exists (N M : ℕ) : ∃ getrs : Op → Matrix (Fin N) (Fin N) 𝕜 → Matrix (Fin N) (Fin M) 𝕜 → Matrix (Fin N) (Fin M) 𝕜,
    GetrsOk id getrs := by
  refine ⟨fun t A B => (t.app A)⁻¹ * B, fun A hA t B => ?_⟩
  rw [id, ← Matrix.mul_assoc, mul_nonsing_inv, Matrix.one_mul]
  cases t
  · exact hA
  · simpa [Op.app] using hA
  · simpa [Op.app, det_conjTranspose] using hA

theorem trtrs_exists (N M : ℕ) : ∃ trtrs : Op → Matrix (Fin N) (Fin N) 𝕜 → Matrix (Fin N) (Fin M) 𝕜 → Matrix (Fin N) (Fin M) 𝕜, TrtrsOk trtrs := by
  obtain ⟨g, hg⟩ := getrs_exists (𝕜 := 𝕜) N M
  refine ⟨g, fun L hL hd t B => hg L ?_ t B⟩
  have : lower L = L := by
    ext i j
    by_cases hij : j ≤ i
    · simp [lower, hij]
    · simp [lower, hij, hL i j (not_le.mp hij)]
  rw [← this]
  exact lower_det L hd

theorem tgsyl_exists (N M : ℕ) : ∃ tgsyl : Matrix (Fin N) (Fin N) 𝕜 → Matrix (Fin M) (Fin M) 𝕜 → Matrix (Fin N) (Fin M) 𝕜 →
    Matrix (Fin N) (Fin N) 𝕜 → Matrix (Fin M) (Fin M) 𝕜 → Matrix (Fin N) (Fin M) 𝕜 → Tgsyl (Fin N) (Fin M) 𝕜, TgsylOk tgsyl := by
  classical
  have key : ∀ (A : Matrix (Fin N) (Fin N) 𝕜) (B : Matrix (Fin M) (Fin M) 𝕜) (C : Matrix (Fin N) (Fin M) 𝕜) (D : Matrix (Fin N) (Fin N) 𝕜)
      (E : Matrix (Fin M) (Fin M) 𝕜) (G : Matrix (Fin N) (Fin M) 𝕜), ∃ r : Tgsyl (Fin N) (Fin M) 𝕜,
      (∀ R L : Matrix (Fin N) (Fin M) 𝕜, A * R - L * B = 0 → D * R - L * E = 0 → R = 0 ∧ L = 0) →
      0 < r.scale ∧ A * r.R - r.L * B = (r.scale : 𝕜) • C ∧ D * r.R - r.L * E = (r.scale : 𝕜) • G := by
    intro A B C D E G
    by_cases hinj : ∀ R L : Matrix (Fin N) (Fin M) 𝕜, A * R - L * B = 0 → D * R - L * E = 0 → R = 0 ∧ L = 0
    · let T : (Matrix (Fin N) (Fin M) 𝕜 × Matrix (Fin N) (Fin M) 𝕜) →ₗ[𝕜] (Matrix (Fin N) (Fin M) 𝕜 × Matrix (Fin N) (Fin M) 𝕜) :=
        { toFun := fun p => (A * p.1 - p.2 * B, D * p.1 - p.2 * E)
          map_add' := fun p q => by
            ext1 <;> simp only [Prod.fst_add, Prod.snd_add, Matrix.mul_add, Matrix.add_mul] <;> abel
          map_smul' := fun c p => by ext1 <;> simp [smul_sub] }
      have hT : Function.Injective T := by
        rw [← LinearMap.ker_eq_bot, LinearMap.ker_eq_bot']
        intro p hp
        have h1 := congrArg Prod.fst hp
        have h2 := congrArg Prod.snd hp
        obtain ⟨a, b⟩ := hinj p.1 p.2 h1 h2
        exact Prod.ext a b
      obtain ⟨p, hp⟩ := (LinearMap.injective_iff_surjective.mp hT) (C, G)
      refine ⟨⟨p.1, p.2, 1⟩, fun _ => ⟨one_pos, ?_, ?_⟩⟩
      · simpa [T] using congrArg Prod.fst hp
      · simpa [T] using congrArg Prod.snd hp
    · exact ⟨⟨0, 0, 1⟩, fun h => absurd h hinj⟩
  choose r hr using key
  exact ⟨r, fun A B C D E G _ _ _ _ hinj => hr A B C D E G hinj⟩

/-- The hypotheses of `C94_sylvester` are met by triangular coefficients with disjoint spectra. -/
example : ∃ (SA SB : Schur (Fin 2) ℝ), IsSchur !![1, 5; 0, 2] SA ∧ IsSchur !![3, 1; 0, 4] SB ∧
    ∀ X : Matrix (Fin 2) (Fin 2) ℝ, !![1, 5; 0, 2] * X + X * !![3, 1; 0, 4] = 0 → X = 0 := by
  have q : ∀ T : Matrix (Fin 2) (Fin 2) ℝ, QuasiUpper T := fun T => ⟨fun i j hij => by omega, fun i j l h1 h2 => by omega⟩
  refine ⟨⟨_, 1⟩, ⟨_, 1⟩, ⟨by simp, q _, by simp; rfl⟩, ⟨by simp, q _, by simp; rfl⟩, fun X h => ?_⟩
  have h00 := congrFun (congrFun h 0) 0
  have h01 := congrFun (congrFun h 0) 1
  have h10 := congrFun (congrFun h 1) 0
  have h11 := congrFun (congrFun h 1) 1
  simp [Matrix.mul_apply, Fin.sum_univ_two, vecMul, dotProduct] at h00 h01 h10 h11
  have e10 : X 1 0 = 0 := by linarith
  have e11 : X 1 1 = 0 := by linarith
  have e00 : X 0 0 = 0 := by linarith
  have e01 : X 0 1 = 0 := by linarith
  ext i j
  fin_cases i <;> fin_cases j <;> simp [e10, e11, e00, e01]

/-- A sequence of calls meeting the hypotheses of `C95_exp`, `C95_log`. -/
example : (∀ c ∈ ([.eig false .L, .log .L, .write !![2, 7; 1, 2], .exp .L] : List (Call (Fin 2) ℝ)), c.only .L) := by
  simp [Call.only]

/-! ## C96: orthonormal factor -/

/-- Squared Frobenius distance. -/
noncomputable def distSq (A B : Matrix m n 𝕜) : ℝ := ∑ i, ∑ j, ‖A i j - B i j‖ ^ 2

theorem gram_diag (P : Matrix m n 𝕜) (j : n) : RCLike.re ((Pᴴ * P) j j) = ∑ i, ‖P i j‖ ^ 2 := by
  rw [Matrix.mul_apply, map_sum]
  refine Finset.sum_congr rfl fun i _ => ?_
  rw [conjTranspose_apply, RCLike.star_def, RCLike.conj_mul]
  norm_cast

theorem gram_sub (P Q : Matrix m n 𝕜) (j : n) : ∑ i, ‖P i j - Q i j‖ ^ 2 =
    RCLike.re ((Pᴴ * P) j j) + RCLike.re ((Qᴴ * Q) j j) - 2 * RCLike.re ((Qᴴ * P) j j) := by
  have h := gram_diag (P - Q) j
  have h1 : (P - Q)ᴴ * (P - Q) = Pᴴ * P + Qᴴ * Q - Qᴴ * P - (Qᴴ * P)ᴴ := by
    rw [conjTranspose_sub, Matrix.sub_mul, Matrix.mul_sub, Matrix.mul_sub, conjTranspose_mul, conjTranspose_conjTranspose]
    abel
  rw [h1] at h
  simp only [Matrix.sub_apply, Matrix.add_apply, conjTranspose_apply, map_sub, map_add, RCLike.star_def, RCLike.conj_re] at h
  rw [← h]
  ring

theorem distSq_eq (A B : Matrix m n 𝕜) : distSq A B =
    RCLike.re (Aᴴ * A).trace + RCLike.re (Bᴴ * B).trace - 2 * RCLike.re (Bᴴ * A).trace := by
  rw [distSq, Finset.sum_comm, Finset.sum_congr rfl fun j _ => gram_sub A B j]
  simp only [Matrix.trace, diag_apply, map_sum]
  rw [Finset.sum_sub_distrib, Finset.sum_add_distrib, Finset.mul_sum]

/-- A tall (or square) matrix: `GetOrth` has orthonormal columns, is the orthonormal factor of a polar decomposition, no matrix with
orthonormal columns is closer, and for full column rank it does not depend on the decomposition that LAPACK returns. -/
theorem C96_columns {A : Matrix m n 𝕜} {U : Matrix m k 𝕜} {s : k → ℝ} {Vt : Matrix k n 𝕜} (h : IsSVD A U s Vt) (hk : Fintype.card k = Fintype.card n) :
    (getOrth U Vt)ᴴ * getOrth U Vt = 1 ∧
    (∃ H : Matrix n n 𝕜, H.PosSemidef ∧ A = getOrth U Vt * H) ∧
    (∀ W : Matrix m n 𝕜, Wᴴ * W = 1 → distSq A (getOrth U Vt) ≤ distSq A W) ∧
    ((∀ v, A *ᵥ v = 0 → v = 0) → ∀ (U' : Matrix m k 𝕜) s' Vt', IsSVD A U' s' Vt' → getOrth U' Vt' = getOrth U Vt) := by
  have hsq : ∀ {V : Matrix k n 𝕜}, V * Vᴴ = 1 → Vᴴ * V = 1 := fun hV => (mul_eq_one_comm_of_card_eq _ _ _ hk).mp hV
  have hV : Vtᴴ * Vt = 1 := hsq h.right
  have horth : ∀ {U : Matrix m k 𝕜} {V : Matrix k n 𝕜}, Uᴴ * U = 1 → Vᴴ * V = 1 → (getOrth U V)ᴴ * getOrth U V = 1 := by
    intro U V hU hV
    rw [getOrth, conjTranspose_mul]
    calc Vᴴ * Uᴴ * (U * V) = Vᴴ * (Uᴴ * U) * V := by simp only [Matrix.mul_assoc]
      _ = 1 := by rw [hU, Matrix.mul_one, hV]
  have hpolar : ∀ {U : Matrix m k 𝕜} {s : k → ℝ} {V : Matrix k n 𝕜}, IsSVD A U s V → A = getOrth U V * (Vᴴ * diagonal (fun i => (s i : 𝕜)) * V) := by
    intro U s V hS
    rw [getOrth]
    calc A = U * diagonal (fun i => (s i : 𝕜)) * V := hS.eq.symm
      _ = U * (V * Vᴴ) * diagonal (fun i => (s i : 𝕜)) * V := by rw [hS.right, Matrix.mul_one]
      _ = _ := by simp only [Matrix.mul_assoc]
  have hpsd : ∀ {s : k → ℝ} (V : Matrix k n 𝕜), (∀ i, 0 ≤ s i) → (Vᴴ * diagonal (fun i => (s i : 𝕜)) * V).PosSemidef := by
    intro s V hs
    refine PosSemidef.conjTranspose_mul_mul_same ?_ V
    exact posSemidef_diagonal_iff.mpr fun i => by simpa using hs i
  refine ⟨horth h.left hV, ⟨_, hpsd Vt h.nonneg, hpolar h⟩, fun W hW => ?_, fun hinj U' s' Vt' h' => ?_⟩
  · have ht : ∀ P : Matrix m n 𝕜, Pᴴ * P = 1 → RCLike.re (Pᴴ * A).trace = ∑ i, s i * RCLike.re (((P * Vtᴴ)ᴴ * U) i i) := by
      intro P _
      have h1 : (Pᴴ * A).trace = ((P * Vtᴴ)ᴴ * U * diagonal (fun i => (s i : 𝕜))).trace := by
        rw [← h.eq, conjTranspose_mul, conjTranspose_conjTranspose, Matrix.mul_assoc Vt, Matrix.mul_assoc Vt, trace_mul_comm Vt]
        simp only [Matrix.mul_assoc]
      rw [h1, Matrix.trace, map_sum]
      refine Finset.sum_congr rfl fun i _ => ?_
      rw [diag_apply, mul_diagonal, mul_comm, RCLike.re_ofReal_mul]
    have hQ := horth h.left hV
    rw [distSq_eq, distSq_eq, hW, hQ, ht W hW, ht _ hQ]
    have hq : ∀ i, RCLike.re (((getOrth U Vt * Vtᴴ)ᴴ * U) i i) = 1 := by
      intro i
      have : getOrth U Vt * Vtᴴ = U := by rw [getOrth, Matrix.mul_assoc, h.right, Matrix.mul_one]
      rw [this, h.left]
      simp
    have hw : ∀ i, RCLike.re (((W * Vtᴴ)ᴴ * U) i i) ≤ 1 := by
      intro i
      have hP : (W * Vtᴴ)ᴴ * (W * Vtᴴ) = 1 := by
        rw [conjTranspose_mul, conjTranspose_conjTranspose]
        calc Vt * Wᴴ * (W * Vtᴴ) = Vt * (Wᴴ * W) * Vtᴴ := by simp only [Matrix.mul_assoc]
          _ = 1 := by rw [hW, Matrix.mul_one, h.right]
      have h2 := gram_sub U (W * Vtᴴ) i
      have h3 : (0 : ℝ) ≤ ∑ l, ‖U l i - (W * Vtᴴ) l i‖ ^ 2 := Finset.sum_nonneg fun l _ => sq_nonneg _
      rw [h2, hP, h.left] at h3
      simp at h3 ⊢
      linarith
    have h4 : ∑ i, s i * RCLike.re (((W * Vtᴴ)ᴴ * U) i i) ≤ ∑ i, s i * RCLike.re (((getOrth U Vt * Vtᴴ)ᴴ * U) i i) :=
      Finset.sum_le_sum fun i _ => by
        rw [hq i]
        exact mul_le_mul_of_nonneg_left (hw i) (h.nonneg i)
    linarith
  · have hV' : Vt'ᴴ * Vt' = 1 := hsq h'.right
    -- both positive semidefinite factors are square roots of the Gram matrix
    have hgram : ∀ {U : Matrix m k 𝕜} {s : k → ℝ} {V : Matrix k n 𝕜}, IsSVD A U s V →
        Aᴴ * A = Vᴴ * diagonal (fun i => ((s i ^ 2 : ℝ) : 𝕜)) * V := by
      intro U s V hS
      have hD : (diagonal (fun i => (s i : 𝕜)))ᴴ = (diagonal (fun i => (s i : 𝕜)) : Matrix k k 𝕜) := by
        rw [diagonal_conjTranspose]; congr 1; ext i; simp
      rw [← hS.eq]
      calc (U * diagonal (fun i => (s i : 𝕜)) * V)ᴴ * (U * diagonal (fun i => (s i : 𝕜)) * V)
          = Vᴴ * diagonal (fun i => (s i : 𝕜)) * (Uᴴ * U) * diagonal (fun i => (s i : 𝕜)) * V := by
            rw [conjTranspose_mul, conjTranspose_mul, hD]; simp only [Matrix.mul_assoc]
        _ = Vᴴ * (diagonal (fun i => (s i : 𝕜)) * diagonal (fun i => (s i : 𝕜))) * V := by
            rw [hS.left, Matrix.mul_one]; simp only [Matrix.mul_assoc]
        _ = _ := by
            rw [diagonal_mul_diagonal]
            congr 3
            funext i
            push_cast
            ring
    obtain ⟨eqv⟩ : Nonempty (k ≃ n) := Fintype.card_eq.mp hk
    have hH : Vt'ᴴ * diagonal (fun i => (s' i : 𝕜)) * Vt' = Vtᴴ * diagonal (fun i => (s i : 𝕜)) * Vt := by
      have hg : Vt'ᴴ * diagonal (fun i => ((s' i ^ 2 : ℝ) : 𝕜)) * Vt' = Vtᴴ * diagonal (fun i => ((s i ^ 2 : ℝ) : 𝕜)) * Vt :=
        (hgram h').symm.trans (hgram h)
      -- move to square matrices indexed by `k`
      have e1 : ∀ (V : Matrix k n 𝕜) (d : k → 𝕜), (Vᴴ * diagonal d * V).submatrix eqv eqv =
          (V.submatrix id eqv)ᴴ * diagonal d * ((V.submatrix id eqv)ᴴ)ᴴ := by
        intro V d
        rw [conjTranspose_conjTranspose, conjTranspose_submatrix, ← submatrix_mul_equiv (Vᴴ * diagonal d) V eqv (Equiv.refl k) eqv,
          ← submatrix_mul_equiv Vᴴ (diagonal d) eqv (Equiv.refl k) (Equiv.refl k)]
        simp
      have e2 : ∀ {V : Matrix k n 𝕜}, V * Vᴴ = 1 → ((V.submatrix id eqv)ᴴ)ᴴ * (V.submatrix id eqv)ᴴ = 1 := by
        intro V hVV
        rw [conjTranspose_conjTranspose, conjTranspose_submatrix]
        have := submatrix_mul_equiv V Vᴴ (id : k → k) eqv (id : k → k)
        rw [this, hVV]
        simp
      have h5 := fun_inj (d := s') (e := s) (e2 h'.right) (e2 h.right) (fun t => t ^ 2)
        (fun i j hij => by
          exact (sq_eq_sq₀ (h'.nonneg i) (h.nonneg j)).mp hij)
        (by rw [← e1, ← e1, hg])
      rw [← e1, ← e1] at h5
      have h6 := congrArg (fun M => M.submatrix eqv.symm eqv.symm) h5
      simpa using h6
    have hdet : IsUnit (Vtᴴ * diagonal (fun i => (s i : 𝕜)) * Vt).det := by
      rw [← Matrix.isUnit_iff_isUnit_det, ← mulVec_injective_iff_isUnit]
      intro v w hvw
      rw [← sub_eq_zero]
      apply hinj
      rw [hpolar h, ← mulVec_mulVec, mulVec_sub]
      have : (Vtᴴ * diagonal (fun i => (s i : 𝕜)) * Vt) *ᵥ v = (Vtᴴ * diagonal (fun i => (s i : 𝕜)) * Vt) *ᵥ w := hvw
      rw [this, sub_self, mulVec_zero]
    have h7 : getOrth U' Vt' * (Vtᴴ * diagonal (fun i => (s i : 𝕜)) * Vt) = getOrth U Vt * (Vtᴴ * diagonal (fun i => (s i : 𝕜)) * Vt) := by
      rw [← hpolar h, ← hH, ← hpolar h']
    generalize Vtᴴ * diagonal (fun i => (s i : 𝕜)) * Vt = K at h7 hdet
    have h8 := congrArg (· * K⁻¹) h7
    simpa only [Matrix.mul_assoc, mul_nonsing_inv _ hdet, Matrix.mul_one] using h8

theorem svd_conjTranspose {A : Matrix m n 𝕜} {U : Matrix m k 𝕜} {s : k → ℝ} {Vt : Matrix k n 𝕜} (h : IsSVD A U s Vt) : IsSVD Aᴴ Vtᴴ s Uᴴ := by
  refine ⟨by rw [conjTranspose_conjTranspose]; exact h.right, by rw [conjTranspose_conjTranspose]; exact h.left, h.nonneg, ?_⟩
  rw [← h.eq, conjTranspose_mul, conjTranspose_mul, diagonal_conjTranspose, Matrix.mul_assoc]
  congr 3
  ext i
  simp

theorem distSq_conjTranspose (A B : Matrix m n 𝕜) : distSq Aᴴ Bᴴ = distSq A B := by
  rw [distSq, distSq, Finset.sum_comm]
  refine Finset.sum_congr rfl fun i _ => Finset.sum_congr rfl fun j _ => ?_
  rw [conjTranspose_apply, conjTranspose_apply, ← star_sub, norm_star]

/-- A wide matrix: the same for rows. -/
theorem C96_rows {A : Matrix m n 𝕜} {U : Matrix m k 𝕜} {s : k → ℝ} {Vt : Matrix k n 𝕜} (h : IsSVD A U s Vt) (hk : Fintype.card k = Fintype.card m) :
    getOrth U Vt * (getOrth U Vt)ᴴ = 1 ∧
    (∃ H : Matrix m m 𝕜, H.PosSemidef ∧ A = H * getOrth U Vt) ∧
    (∀ W : Matrix m n 𝕜, W * Wᴴ = 1 → distSq A (getOrth U Vt) ≤ distSq A W) ∧
    ((∀ v, Aᴴ *ᵥ v = 0 → v = 0) → ∀ (U' : Matrix m k 𝕜) s' Vt', IsSVD A U' s' Vt' → getOrth U' Vt' = getOrth U Vt) := by
  have hc : ∀ (U : Matrix m k 𝕜) (V : Matrix k n 𝕜), getOrth Vᴴ Uᴴ = (getOrth U V)ᴴ := fun U V => (conjTranspose_mul _ _).symm
  obtain ⟨h1, ⟨H, hH, h2⟩, h3, h4⟩ := C96_columns (svd_conjTranspose h) hk
  rw [hc] at h1 h2 h3 h4
  refine ⟨by rwa [conjTranspose_conjTranspose] at h1, ⟨H, hH, ?_⟩, fun W hW => ?_, fun hi U' s' V' hS => ?_⟩
  · have := congrArg conjTranspose h2
    rwa [conjTranspose_mul, conjTranspose_conjTranspose, conjTranspose_conjTranspose, hH.isHermitian.eq] at this
  · have := h3 Wᴴ (by rwa [conjTranspose_conjTranspose])
    rwa [distSq_conjTranspose, distSq_conjTranspose] at this
  · have := h4 hi _ _ _ (svd_conjTranspose hS)
    rw [hc] at this
    exact conjTranspose_injective this

/-- A decomposition meeting the hypotheses of `C96_columns`. -/
example : IsSVD (!![3, 0; 0, 2; 0, 0] : Matrix (Fin 3) (Fin 2) ℝ) !![1, 0; 0, 1; 0, 0] ![3, 2] (1 : Matrix (Fin 2) (Fin 2) ℝ) := by
  refine ⟨?_, by simp, fun i => by fin_cases i <;> simp, ?_⟩
  · ext i j; fin_cases i <;> fin_cases j <;> simp [Matrix.mul_apply, Fin.sum_univ_three]
  · rw [Matrix.mul_one]
    ext i j
    rw [mul_diagonal]
    fin_cases i <;> fin_cases j <;> simp

/-! ## C97: entrywise functions -/

/-- `GetAbs` of a real array is the entrywise absolute value; `GetSqrt` of a real array without negative entry is the entrywise square root,
and with a negative entry the result has no value. -/
theorem C97_real (x : Dense.El) :
    (∀ i < x.len, (getAbs x).get i = |x.get i|) ∧
    ((∀ i < x.len, 0 ≤ x.get i) → ∃ y, getSqrt x = some y ∧ ∀ i < x.len, 0 ≤ y.get i ∧ y.get i * y.get i = x.get i) ∧
    ((∃ i < x.len, x.get i < 0) → getSqrt x = none) := by
  refine ⟨fun i hi => by simp [getAbs, hi], fun h => ?_, fun h => by simp [getSqrt, h]⟩
  have hn : ¬ ∃ i < x.len, x.get i < 0 := fun ⟨i, hi, h0⟩ => absurd (h i hi) (not_le.mpr h0)
  refine ⟨{ x with get := fun i => if i < x.len then √(x.get i) else x.get i }, by rw [getSqrt, if_neg hn], fun i hi => ?_⟩
  simp only [hi, if_true]
  exact ⟨Real.sqrt_nonneg _, Real.mul_self_sqrt (h i hi)⟩

/-- Complex arrays whose entries are nonnegative real numbers (the eigenvalue arrays): `GetSqrt` is the entrywise square root and
`GetAbs` the modulus. -/
theorem C97_complex_partial (x : Dense.El) (q : ℕ) (hq : 2 * q + 1 < x.len) (h : ∀ p, 2 * p + 1 < x.len → 0 ≤ x.get (2 * p) ∧ x.get (2 * p + 1) = 0)
    (he : x.len % 2 = 0) :
    Dense.cx (getAbs x).get q = (‖Dense.cx x.get q‖ : ℂ) ∧
    ∃ y, getSqrt x = some y ∧ Dense.cx y.get q * Dense.cx y.get q = Dense.cx x.get q := by
  obtain ⟨hr, hi⟩ := h q hq
  have hcx : Dense.cx x.get q = ((x.get (2 * q) : ℝ) : ℂ) := by
    apply Complex.ext <;> simp [Dense.cx, hi]
  refine ⟨?_, ?_⟩
  · rw [hcx, Complex.norm_real]
    apply Complex.ext <;> simp [Dense.cx, getAbs, hq, show 2 * q < x.len by omega, hi]
  · have hn : ¬ ∃ i < x.len, x.get i < 0 := by
      rintro ⟨i, hil, h0⟩
      rcases Nat.even_or_odd' i with ⟨p, rfl | rfl⟩
      · exact absurd (h p (by omega)).1 (not_le.mpr h0)
      · rw [(h p hil).2] at h0
        exact lt_irrefl _ h0
    refine ⟨{ x with get := fun i => if i < x.len then √(x.get i) else x.get i }, by rw [getSqrt, if_neg hn], ?_⟩
    rw [hcx]
    apply Complex.ext <;> simp [Dense.cx, hq, show 2 * q < x.len by omega, hi, Real.mul_self_sqrt hr]

/-- Other complex arrays: real and imaginary parts are treated separately, so `GetAbs` is not the modulus and `GetSqrt` not a square
root. -/
theorem C97_complex_parts :
    (∃ x : Dense.El, x.cplx = true ∧ Dense.cx (getAbs x).get 0 ≠ (‖Dense.cx x.get 0‖ : ℂ)) ∧
    (∃ x y : Dense.El, x.cplx = true ∧ getSqrt x = some y ∧ Dense.cx y.get 0 * Dense.cx y.get 0 ≠ Dense.cx x.get 0) := by
  refine ⟨⟨⟨true, 2, 1, 1, fun _ => 1⟩, rfl, fun h => ?_⟩,
    ⟨⟨true, 2, 1, 1, fun _ => 1⟩, ⟨true, 2, 1, 1, fun i => if i < 2 then √1 else 1⟩, rfl, ?_, fun h => ?_⟩⟩
  · have := congrArg Complex.im h
    simp [Dense.cx, getAbs, Dense.El.len] at this
  · simp [getSqrt, Dense.El.len]
    norm_num
  · have := congrArg Complex.re h
    simp [Dense.cx] at this

end Verif.MatFun
