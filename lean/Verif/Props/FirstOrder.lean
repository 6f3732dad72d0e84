import Verif.Props.StiefelDiff
import Verif.Props.FixedRank
import Verif.Props.Q2F
import Verif.Props.SymFR
import Verif.Props.SPD
import Verif.Props.Sphere
import Mathlib.Analysis.Asymptotics.Lemmas

/-!
# C77: every retraction starts at the point with the given velocity
-/

set_option linter.unusedSectionVars false
set_option linter.unusedVariables false

namespace Verif.Curve

open Matrix Verif.Mat

variable {𝕜 : Type*} [RCLike 𝕜]
variable {m n p q : Type*} [Fintype m] [Fintype n] [Fintype p] [Fintype q] [DecidableEq m] [DecidableEq n] [DecidableEq p] [DecidableEq q]

/-- A curve that differs from a line by at most `C t²` has the velocity of the line. -/
theorem hasDerivAt_of_sq {f : ℝ → 𝕜} {a v : 𝕜} {C δ : ℝ} (hδ : 0 < δ) (h : ∀ t : ℝ, |t| ≤ δ → ‖f t - a - (t : 𝕜) * v‖ ≤ C * t ^ 2) : HasDerivAt f v 0 := by
  have h0 : f 0 = a := by
    have := h 0 (by rw [abs_zero]; exact hδ.le)
    simp only [RCLike.ofReal_zero, zero_mul, sub_zero, ne_eq, OfNat.ofNat_ne_zero, not_false_eq_true, zero_pow, mul_zero, norm_le_zero_iff] at this
    exact sub_eq_zero.mp this
  rw [hasDerivAt_iff_isLittleO_nhds_zero]
  have hO : (fun t : ℝ => f (0 + t) - f 0 - t • v) =O[nhds 0] fun t : ℝ => t ^ 2 := by
    refine Asymptotics.IsBigO.of_bound C ?_
    filter_upwards [Metric.ball_mem_nhds (0 : ℝ) hδ] with t ht
    rw [Metric.mem_ball, dist_zero_right, Real.norm_eq_abs] at ht
    have := h t ht.le
    rw [zero_add, h0, RCLike.real_smul_eq_coe_mul, Real.norm_eq_abs, abs_of_nonneg (sq_nonneg t)]
    exact this
  refine hO.trans_isLittleO ?_
  have := Asymptotics.isLittleO_pow_pow (𝕜 := ℝ) (m := 1) (n := 2) one_lt_two
  simpa using this

theorem ED.of_sq {γ : ℝ → Matrix m n 𝕜} {x ξ : Matrix m n 𝕜} (C : m → n → ℝ) {δ : ℝ} (hδ : 0 < δ) (h : ∀ t : ℝ, |t| ≤ δ → ∀ i j, ‖(γ t - x - (t : 𝕜) • ξ) i j‖ ≤ C i j * t ^ 2) : ED γ ξ 0 :=
  fun i j => hasDerivAt_of_sq hδ (a := x i j) (C := C i j) fun t ht => h t ht i j

theorem entry_le_frob (A : Matrix m n ℝ) (i : m) (j : n) : |A i j| ≤ √(frob A A) := by
  refine Real.abs_le_sqrt ?_
  unfold frob
  calc A i j ^ 2 = A i j * A i j := sq _
    _ ≤ ∑ j, A i j * A i j := Finset.single_le_sum (f := fun j => A i j * A i j) (fun _ _ => mul_self_nonneg _) (Finset.mem_univ j)
    _ ≤ ∑ i, ∑ j, A i j * A i j := Finset.single_le_sum (f := fun i => ∑ j, A i j * A i j) (fun _ _ => Finset.sum_nonneg fun _ _ => mul_self_nonneg _) (Finset.mem_univ i)

end Verif.Curve

namespace Verif.Stiefel

open Matrix Verif.Mat Verif.Curve

variable {n p : Type*} [Fintype n] [Fintype p] [DecidableEq n] [DecidableEq p]

theorem IsTangent.smul {x ξ : Matrix n p ℝ} (hξ : IsTangent x ξ) (t : ℝ) : IsTangent x (t • ξ) := by
  unfold IsTangent at *; rw [Matrix.mul_smul, transpose_smul, hξ, smul_neg]

/-- **C77 (Stiefel and Grassmann, qf).** -/
theorem C77_qf {k : ℕ} {x ξ : Matrix n (Fin k) ℝ} (hx : xᵀ * x = 1) (hξ : IsTangent x ξ) (Q : ℝ → Matrix n (Fin k) ℝ) (R : ℝ → Matrix (Fin k) (Fin k) ℝ)
    (hQ : ∀ t, (Q t)ᵀ * Q t = 1) (hR : ∀ t, IsUpper (R t)) (hQR : ∀ t, Q t * R t = x + t • ξ) :
    qfRetraction (Q 0) (R 0) = x ∧ ED (fun t => qfRetraction (Q t) (R t)) ξ 0 := by
  have hz : IsTangent x (0 : Matrix n (Fin k) ℝ) := by simp [IsTangent]
  have hQR0 : Q 0 * R 0 = x + 0 := by rw [hQR 0, zero_smul]
  have h0 := C36_qf_zero hx (hQ 0) (hR 0) hQR0
  obtain ⟨_, ⟨R', _, hp, he, hR'⟩, _⟩ := C36_qf_retraction hx hz (hQ 0) (hR 0) hQR0
  refine ⟨h0, fun i j => ?_⟩
  have h := C62_qf_diff_retraction hx hz hξ Q R hQ hR (fun t => by rw [hQR t, zero_add]) i j
  have e : diffQf (qfRetraction (Q 0) (R 0)) (R 0) ξ = ξ := by
    rw [h0, add_zero] at he
    have e1 : R' = 1 := by
      have := congrArg (xᵀ * ·) he
      simp only [← Matrix.mul_assoc, hx, Matrix.one_mul] at this
      exact this
    have e2 : (diagonal (signs (R 0)) * R 0)⁻¹ = 1 := by rw [← hR', e1, inv_one]
    have e3 : scaleCols (signs (R 0)) (ξ * (R 0)⁻¹) = ξ := by
      rw [scaleCols_eq]
      have e4 : (R 0)⁻¹ * diagonal (signs (R 0)) = 1 := by
        have e5 : diagonal (signs (R 0)) * R 0 = 1 := by rw [← hR', e1]
        have e6 : (R 0)⁻¹ = diagonal (signs (R 0)) := inv_eq_left_inv e5
        rw [e6, signs_diag]
      rw [Matrix.mul_assoc, e4, Matrix.mul_one]
    have e4 : qfCorrection (xᵀ * ξ) = 0 := by
      ext i j
      have hs : ∀ i j, (xᵀ * ξ) j i = -(xᵀ * ξ) i j := fun i j => by
        have := congrFun (congrFun hξ i) j
        rwa [transpose_apply, neg_apply] at this
      unfold qfCorrection
      split_ifs with h1 h2
      · have := hs i i
        subst h1
        change -(xᵀ * ξ) i i = 0
        linarith
      · rw [hs i j, Matrix.zero_apply]; ring
      · rfl
    rw [diffQf]
    simp only [h0, e3, e4, Matrix.mul_zero, add_zero]
  rw [e] at h
  exact h

/-- **C77 (polar).** -/
theorem C77_polar {x ξ : Matrix n p ℝ} (hx : xᵀ * x = 1) (hξ : IsTangent x ξ) (U : ℝ → Matrix n p ℝ) (s : ℝ → p → ℝ) (Vt : ℝ → Matrix p p ℝ)
    (hU : ∀ t, (U t)ᵀ * U t = 1) (hV : ∀ t, (Vt t)ᵀ * Vt t = 1) (hs : ∀ t i, 0 ≤ s t i) (hsvd : ∀ t, U t * diagonal (s t) * Vt t = x + t • ξ) :
    polarRetraction (U 0) (Vt 0) = x ∧ ED (fun t => polarRetraction (U t) (Vt t)) ξ 0 := by
  refine ⟨(C36_polar_retraction hx (hU 0) (hV 0) (hs 0) (hsvd 0)).2.2 (zero_smul _ _), ED.of_sq (x := x) (fun _ _ => √(frob (ξᵀ * ξ) (ξᵀ * ξ))) one_pos fun t _ i j => ?_⟩
  obtain ⟨h1, h2, _⟩ := C36_polar_retraction hx (hU t) (hV t) (hs t) (hsvd t)
  obtain ⟨g1, g2, g3, g4⟩ := svd_facts hx (hξ.smul t) (hU t) (hV t) (hs t) (hsvd t)
  set y := polarRetraction (U t) (Vt t)
  have hV' : Vt t * (Vt t)ᵀ = 1 := mul_eq_one_comm.mp (hV t)
  have e1 : y - x - t • ξ = y * ((Vt t)ᵀ * diagonal (fun i => 1 - s t i) * Vt t) := by
    have : (Vt t)ᵀ * diagonal (fun i => 1 - s t i) * Vt t = 1 - (Vt t)ᵀ * diagonal (s t) * Vt t := by
      have : diagonal (fun i => 1 - s t i) = (1 : Matrix p p ℝ) - diagonal (s t) := by
        rw [← diagonal_one, diagonal_sub]
      rw [this, Matrix.mul_sub, Matrix.sub_mul, Matrix.mul_one, hV t]
    rw [this, Matrix.mul_sub, Matrix.mul_one, h2]
    abel
  have key : ∀ d : p → ℝ, frob ((Vt t)ᵀ * diagonal d * Vt t) ((Vt t)ᵀ * diagonal d * Vt t) = ∑ i, d i * d i := by
    intro d
    rw [frob_mul_right, Matrix.mul_assoc _ (Vt t), hV', Matrix.mul_one, frob_mul_left, transpose_transpose, ← Matrix.mul_assoc, hV', Matrix.one_mul]
    unfold frob
    refine Finset.sum_congr rfl fun i _ => ?_
    rw [Finset.sum_eq_single i]
    · simp
    · intro j _ hj; simp [diagonal_apply_ne _ (Ne.symm hj)]
    · simp
  have e2 : frob (y - x - t • ξ) (y - x - t • ξ) ≤ t ^ 4 * frob (ξᵀ * ξ) (ξᵀ * ξ) := by
    rw [e1, frob_mul_left, ← Matrix.mul_assoc, h1, Matrix.one_mul, key]
    have e3 : t ^ 4 * frob (ξᵀ * ξ) (ξᵀ * ξ) = ∑ i, (s t i * s t i - 1) * (s t i * s t i - 1) := by
      rw [← key, ← spd, ← g2, transpose_smul, Matrix.smul_mul, Matrix.mul_smul, smul_smul, frob_smul_left, frob_smul_right]
      ring
    rw [e3]
    refine Finset.sum_le_sum fun i _ => ?_
    have := hs t i
    have e4 : (s t i * s t i - 1) * (s t i * s t i - 1) = (1 - s t i) * (1 - s t i) * ((1 + s t i) * (1 + s t i)) := by ring
    rw [e4]
    refine le_mul_of_one_le_right (mul_self_nonneg _) ?_
    nlinarith
  refine (entry_le_frob _ i j).trans ?_
  rw [RCLike.ofReal_real_eq_id, id]
  refine (Real.sqrt_le_sqrt e2).trans ?_
  rw [Real.sqrt_mul (by positivity), show t ^ 4 = (t ^ 2) ^ 2 by ring, Real.sqrt_sq (by positivity), mul_comm]

/-- **C77 (Cayley).** -/
theorem C77_cayley {x ξ : Matrix n p ℝ} (hx : xᵀ * x = 1) (hξ : IsTangent x ξ) :
    cayleyRetraction x ((0 : ℝ) • ξ) = x ∧ ED (fun t : ℝ => cayleyRetraction x (t • ξ)) ξ 0 := by
  have hdef : ∀ s : ℝ, cayleyRetraction x (s • ξ) - x = (s / 2) • (cayW x ξ * (x + cayleyRetraction x (s • ξ))) := by
    intro s
    have h := (C36_cayley_retraction hx (hξ.smul s)).2.1
    rw [← cayW_eq, cayW_smul, Matrix.smul_mul, smul_smul] at h
    rw [h]
    congr 1; ring
  have hWx : cayW x ξ * x = ξ := by
    rw [cayW_eq, Matrix.sub_mul, Matrix.mul_assoc, hx, Matrix.mul_one, Matrix.mul_assoc x, transpose_sub, transpose_mul, transpose_smul, Matrix.sub_mul, Matrix.mul_assoc _ xᵀ x, hx, Matrix.mul_one]
    have h1 : ξᵀ * x = -(xᵀ * ξ) := by rw [← hξ, transpose_mul, transpose_transpose]
    rw [hξ, h1, Matrix.mul_sub, Matrix.mul_smul, smul_neg, Matrix.mul_neg, Matrix.mul_neg, Matrix.mul_smul]
    module
  refine ⟨(C36_cayley_retraction hx (hξ.smul 0)).2.2 (zero_smul _ _),
    ED.of_sq (x := x) (fun i _ => (1 / 4) * ∑ l, |(cayW x ξ * cayW x ξ) i l| * 2) one_pos fun t _ i j => ?_⟩
  have hy := (C36_cayley_retraction hx (hξ.smul t)).1
  set y := cayleyRetraction x (t • ξ)
  have e1 : y - x - t • ξ = (t ^ 2 / 4) • ((cayW x ξ * cayW x ξ) * (x + y)) := by
    have e2 : y - x = (t / 2) • (cayW x ξ * (x + y)) := hdef t
    have e3 : y - x - t • ξ = (t / 2) • (cayW x ξ * (y - x)) := by
      calc y - x - t • ξ = (t / 2) • (cayW x ξ * (x + y)) - t • ξ := by rw [e2]
        _ = (t / 2) • (cayW x ξ * (y - x)) := by rw [Matrix.mul_add, Matrix.mul_sub, hWx]; module
    rw [e3, e2, Matrix.mul_smul, smul_smul, Matrix.mul_assoc]
    congr 1; ring
  have bd : ∀ z : Matrix n p ℝ, zᵀ * z = 1 → ∀ l, |z l j| ≤ 1 := by
    intro z hz l
    have := congrFun (congrFun hz j) j
    rw [Matrix.mul_apply, one_apply_eq] at this
    have h2 : z l j * z l j ≤ 1 := by
      rw [← this]
      exact Finset.single_le_sum (f := fun l => zᵀ j l * z l j) (fun _ _ => mul_self_nonneg _) (Finset.mem_univ l)
    exact abs_le_one_iff_mul_self_le_one.mpr h2
  rw [RCLike.ofReal_real_eq_id, id, e1, Matrix.smul_apply, smul_eq_mul, Real.norm_eq_abs, abs_mul, abs_of_nonneg (by positivity : 0 ≤ t ^ 2 / 4), Matrix.mul_apply]
  have h3 : |∑ l, (cayW x ξ * cayW x ξ) i l * (x + y) l j| ≤ ∑ l, |(cayW x ξ * cayW x ξ) i l| * 2 := by
    refine (Finset.abs_sum_le_sum_abs _ _).trans (Finset.sum_le_sum fun l _ => ?_)
    rw [abs_mul]
    refine mul_le_mul_of_nonneg_left ?_ (abs_nonneg _)
    have := abs_add_le (x l j) (y l j)
    have h4 := bd x hx l
    have h5 := bd y hy l
    rw [Matrix.add_apply]
    linarith
  calc t ^ 2 / 4 * |∑ l, (cayW x ξ * cayW x ξ) i l * (x + y) l j| ≤ t ^ 2 / 4 * ∑ l, |(cayW x ξ * cayW x ξ) i l| * 2 := mul_le_mul_of_nonneg_left h3 (by positivity)
    _ = 1 / 4 * (∑ l, |(cayW x ξ * cayW x ξ) i l| * 2) * t ^ 2 := by ring

example : ED (fun t : ℝ => cayleyRetraction exX (t • exEta)) exEta 0 := (C77_cayley exX_orth exEta_tangent).2

theorem ray0_gram_ne (t : ℝ) : (exX + t • exEta)ᵀ * (exX + t • exEta) ≠ 0 := by
  intro h
  have := one_add_gram_det_ne_zero (t • exEta)
  rw [← gram_add exX_orth (exEta_tangent.smul t), h] at this
  exact this (by simp)

example : (∃ (Q : ℝ → Matrix (Fin 2) (Fin 1) ℝ) (R : ℝ → Matrix (Fin 1) (Fin 1) ℝ), ED (fun t => qfRetraction (Q t) (R t)) exEta 0) ∧
    ∃ (U : ℝ → Matrix (Fin 2) (Fin 1) ℝ) (s : ℝ → Fin 1 → ℝ) (Vt : ℝ → Matrix (Fin 1) (Fin 1) ℝ), ED (fun t => polarRetraction (U t) (Vt t)) exEta 0 := by
  obtain ⟨Q, r, h1, h2, h3⟩ := one_col_factors (fun t => exX + t • exEta) ray0_gram_ne
  refine ⟨⟨Q, fun t => diagonal fun _ => r t, (C77_qf exX_orth exEta_tangent Q _ h1 ?_ h3).2⟩, ⟨Q, fun t _ => r t, fun _ => 1,
    (C77_polar exX_orth exEta_tangent Q _ _ h1 (fun _ => by simp) (fun t _ => h2 t) fun t => by rw [Matrix.mul_one]; exact h3 t).2⟩⟩
  intro t i j h; rw [Subsingleton.elim i j] at h; exact absurd h (lt_irrefl _)

end Verif.Stiefel

namespace Verif.FixedRank

open Matrix Verif.Mat Verif.Curve

variable {m n r : Type*} [Fintype m] [Fintype n] [Fintype r] [DecidableEq m] [DecidableEq n] [DecidableEq r]

/-- **C77 (embedded fixed rank).** Also for the factors. -/
theorem C77_fixed_rank {x : Pt m n r} (h : IsPt x) {η : Vec m n r} (hη : IsTan x η) (Q : ℝ → Matrix m r ℝ) (RU RVt : ℝ → Matrix r r ℝ) (s : ℝ → r → ℝ)
    (Q' : ℝ → Matrix n r ℝ) (RU' RVt' : ℝ → Matrix r r ℝ) (s' : ℝ → r → ℝ) (hf : ∀ t, Fac (x.U + (scalarTimes t η).dU) (Q t) (RU t) (s t) (RVt t))
    (hf' : ∀ t, Fac (x.V + (scalarTimes t η).dV) (Q' t) (RU' t) (s' t) (RVt' t)) :
    let y := fun t => retract x (scalarTimes t η) (orthFactor (Q t) (RU t) (RVt t)) (orthFactor (Q' t) (RU' t) (RVt' t))
    y 0 = x ∧ ED (fun t => (y t).U) η.dU 0 ∧ ED (fun t => (y t).D) η.dD 0 ∧ ED (fun t => (y t).V) η.dV 0 ∧ ED (fun t => (y t).mat) η.mat 0 := by
  intro y
  obtain ⟨a0, a⟩ := Stiefel.C77_polar h.U (isTangent_of hη.U) (fun t => Q t * RU t) s RVt (fun t => (hf t).ortho) (fun t => (hf t).hRVt) (fun t => (hf t).hs) fun t => (hf t).svd
  obtain ⟨b0, b⟩ := Stiefel.C77_polar h.V (isTangent_of hη.V) (fun t => Q' t * RU' t) s' RVt' (fun t => (hf' t).ortho) (fun t => (hf' t).hRVt) (fun t => (hf' t).hs) fun t => (hf' t).svd
  simp only [← orthFactor_polar] at a0 a b0 b
  have d : ED (fun t : ℝ => x.D + t • η.dD) η.dD 0 := ED.line x.D η.dD 0
  refine ⟨?_, a, d, b, ?_⟩
  · simp only [y, retract, a0, b0, scalarTimes, zero_smul, add_zero, ← h.mat]
  · refine ED.congr ((a.mul d).mul b.transpose) ?_
    simp only [a0, b0, zero_smul, add_zero, hη.mat, Matrix.add_mul]
    abel

theorem ex_gram_ne {U d : Matrix (Fin 2) (Fin 1) ℝ} (hU : Uᵀ * U = 1) (hd : Uᵀ * d = 0) (t : ℝ) : (U + t • d)ᵀ * (U + t • d) ≠ 0 := by
  intro h
  have := Verif.Mat.one_add_gram_det_ne_zero (t • d)
  rw [← Stiefel.gram_add hU ((isTangent_of hd).smul t), h] at this
  exact this (by simp)

theorem fac_of {A Q : Matrix (Fin 2) (Fin 1) ℝ} {r : ℝ} (h1 : Qᵀ * Q = 1) (h2 : 0 ≤ r) (h3 : Q * diagonal (fun _ : Fin 1 => r) = A) : Fac A Q 1 (fun _ => r) 1 :=
  ⟨h1, by simp, by simp, fun _ => h2, by rw [Matrix.one_mul, Matrix.mul_one, h3]⟩

example : ∃ y : ℝ → Pt (Fin 2) (Fin 2) (Fin 1), y 0 = exPt ∧ ED (fun t => (y t).mat) exVec.mat 0 := by
  obtain ⟨Q, r, h1, h2, h3⟩ := Stiefel.one_col_factors (fun t => exPt.U + t • exVec.dU) (ex_gram_ne exPt_isPt.U exVec_isTan.U)
  obtain ⟨Q', r', h1', h2', h3'⟩ := Stiefel.one_col_factors (fun t => exPt.V + t • exVec.dV) (ex_gram_ne exPt_isPt.V exVec_isTan.V)
  have := C77_fixed_rank exPt_isPt exVec_isTan Q (fun _ => 1) (fun _ => 1) (fun t _ => r t) Q' (fun _ => 1) (fun _ => 1) (fun t _ => r' t) (fun t => fac_of (h1 t) (h2 t) (h3 t))
    fun t => fac_of (h1' t) (h2' t) (h3' t)
  exact ⟨_, this.1, this.2.2.2.2⟩

end Verif.FixedRank

namespace Verif.Q2F

open Matrix Verif.Curve

variable {𝕜 : Type*} [RCLike 𝕜]
variable {m n r : Type*} [Fintype m] [Fintype n] [Fintype r] [DecidableEq m] [DecidableEq n] [DecidableEq r]

/-- **C77 (two-factor fixed rank, real and complex).** -/
theorem C77_two_factor (x ξ : Pair 𝕜 m n r) :
    retract x ⟨((0 : ℝ) : 𝕜) • ξ.G, ((0 : ℝ) : 𝕜) • ξ.H⟩ = x ∧ ED (fun t : ℝ => mat (retract x ⟨(t : 𝕜) • ξ.G, (t : 𝕜) • ξ.H⟩)) (rep x ξ) 0 := by
  constructor
  · simp [retract]
  · have a := (ED.line x.G ξ.G 0).mul (ED.line x.H ξ.H 0).conjTranspose
    refine ED.congr a ?_
    simp only [rep, RCLike.ofReal_zero, zero_smul, add_zero]

end Verif.Q2F

namespace Verif.SymFR

open Matrix Verif.Curve

variable {𝕜 : Type*} [RCLike 𝕜]
variable {n p : Type*} [Fintype n] [Fintype p] [DecidableEq n] [DecidableEq p]

/-- **C77 (symmetric fixed rank, extrinsic vectors).** -/
theorem C77_sym_extrinsic (x ξ : Matrix n p 𝕜) :
    retract x (((0 : ℝ) : 𝕜) • ξ) = x ∧ ED (fun t : ℝ => mat (retract x ((t : 𝕜) • ξ))) (rep x ξ) 0 := by
  constructor
  · simp [retract]
  · have a := (ED.line x ξ 0).mul (ED.line x ξ 0).conjTranspose
    refine ED.congr a ?_
    simp only [rep, RCLike.ofReal_zero, zero_smul, add_zero]
    try abel

end Verif.SymFR

namespace Verif.SPD

open Matrix Verif.Mat Verif.Curve

variable {n : ℕ}

/-- **C77 (SPD, second order retraction).** -/
theorem C77_spd_second_order {x L : Matrix (Fin n) (Fin n) ℝ} (h : IsChol x L) {ξ : Matrix (Fin n) (Fin n) ℝ} (hξ : ξᵀ = ξ) :
    secOrd L x ((0 : ℝ) • ξ) = x ∧ ED (fun t : ℝ => secOrd L x (t • ξ)) ξ 0 := by
  have hz : (0 : Matrix (Fin n) (Fin n) ℝ)ᵀ = 0 := transpose_zero
  refine ⟨by rw [zero_smul]; exact (C38_second_order h hz).2.2, fun i j => ?_⟩
  have a := C62_spd_second_order h hz hξ i j
  simp only [zero_add] at a
  have e : diffSecOrd L 0 ξ = ξ := by
    simp only [diffSecOrd, Matrix.mul_zero, transpose_zero, Matrix.zero_mul]
    rw [symInPlace_eq]
    simp [Stiefel.sym]
  rwa [e] at a

/-- **C77 (SPD, exponential).** Whatever eigendecompositions LAPACK returns. -/
theorem C77_spd_exponential {x L : Matrix (Fin n) (Fin n) ℝ} (h : IsChol x L) {ξ : Matrix (Fin n) (Fin n) ℝ} (hξ : ξᵀ = ξ) (V : ℝ → Matrix (Fin n) (Fin n) ℝ)
    (lam : ℝ → Fin n → ℝ) (hE : ∀ t, IsEig (whitened L (t • ξ)) (V t) (lam t)) : expRetr L (V 0) (lam 0) = x ∧ ED (fun t => expRetr L (V t) (lam t)) ξ 0 := by
  have hs : ∀ t : ℝ, (t • ξ)ᵀ = t • ξ := fun t => by rw [transpose_smul, hξ]
  refine ⟨(C38_exponential h (hs 0) (hE 0)).2.2 (zero_smul _ _), ?_⟩
  have hw : ∀ t : ℝ, whitened L (t • ξ) = t • (V 1 * diagonal (lam 1) * (V 1)ᵀ) := by
    intro t
    rw [← (hE 1).eq, one_smul]
    simp only [whitened, Matrix.mul_smul, transpose_smul]
  have hE' : ∀ t : ℝ, IsEig (whitened L (t • ξ)) (V 1) (t • lam 1) := fun t => ⟨(hE 1).orth, by
    rw [hw t, diagonal_smul, Matrix.mul_smul, Matrix.smul_mul]⟩
  have e1 : (fun t => expRetr L (V t) (lam t)) = fun t => L * (V 1 * diagonal (fun i => Real.exp (t * lam 1 i)) * (V 1)ᵀ) * Lᵀ := by
    funext t
    have a := (C38_exponential h (hs t) (hE t)).2.1
    have b := (C38_exponential h (hs t) (hE' t)).2.1
    rw [a, ← b, expRetr_eq, expSym]
    rfl
  rw [e1]
  have hd : ED (fun t : ℝ => diagonal (fun i => Real.exp (t * lam 1 i))) (diagonal (lam 1)) 0 := by
    intro i j
    by_cases hij : i = j
    · subst hij
      simp only [diagonal_apply_eq]
      have := ((hasDerivAt_id (0 : ℝ)).mul_const (lam 1 i)).exp
      simpa using this
    · simp only [diagonal_apply_ne _ hij]
      exact hasDerivAt_const _ _
  refine ED.congr (((hd.const_mul (V 1)).mul_const (V 1)ᵀ).const_mul L |>.mul_const Lᵀ) ?_
  rw [← (hE 1).eq, one_smul, whitened, transpose_mul, hξ]
  rw [← Matrix.mul_assoc, ← Matrix.mul_assoc, Matrix.mul_nonsing_inv _ (isUnit_iff_ne_zero.mpr h.det), Matrix.one_mul, Matrix.mul_assoc, ← transpose_mul, Matrix.mul_nonsing_inv _ (isUnit_iff_ne_zero.mpr h.det), transpose_one, Matrix.mul_one]

example (d : Fin 3 → ℝ) : ED (fun t : ℝ => expRetr 1 1 (fun i => t * d i)) (diagonal d) 0 :=
  (C77_spd_exponential (x := 1) ⟨by simp, by simp⟩ (diagonal_transpose d) (fun _ => 1) (fun t i => t * d i) fun t => ⟨by simp, by
    simp only [whitened, inv_one, Matrix.one_mul, transpose_smul, diagonal_transpose, Matrix.mul_one, transpose_one]
    rw [← diagonal_smul]
    rfl⟩).2

end Verif.SPD

namespace Verif.Sphere

open scoped RealInnerProductSpace

variable {E : Type*} [NormedAddCommGroup E] [InnerProductSpace ℝ E]

/-- **C77 (sphere, partial).** The exponential retraction, completed by `x` at the zero vector. Missing: at the zero vector itself the code returns NaN (second conjunct). -/
theorem C77_sphere_partial {x ξ : E} (hx : ‖x‖ = 1) (hξ : ⟪x, ξ⟫ = 0) :
    HasDerivAt (fun t : ℝ => (expRetraction x (t • ξ)).getD x) ξ 0 ∧ expRetraction x ((0 : ℝ) • ξ) = none := by
  refine ⟨?_, by rw [zero_smul]; exact C33_zero_tangent_gives_nan x⟩
  by_cases h0 : ξ = 0
  · subst h0
    simp only [smul_zero, C33_zero_tangent_gives_nan]
    exact hasDerivAt_const _ _
  have hn : ‖ξ‖ ≠ 0 := norm_ne_zero_iff.mpr h0
  have e : (fun t : ℝ => (expRetraction x (t • ξ)).getD x) = fun t => (Real.sin (t * ‖ξ‖) / ‖ξ‖) • ξ + Real.cos (t * ‖ξ‖) • x := by
    funext t
    by_cases ht : t = 0
    · subst ht
      simp [C33_zero_tangent_gives_nan]
    · have hne : t • ξ ≠ 0 := smul_ne_zero ht h0
      obtain ⟨y, h1, _, h2⟩ := C33_retraction_unit_partial hx (by rw [real_inner_smul_right, hξ, mul_zero]) hne
      rw [h1, Option.getD_some, h2, norm_smul, Real.norm_eq_abs, smul_smul]
      rcases abs_cases t with ⟨ha, _⟩ | ⟨ha, _⟩ <;> rw [ha]
      · congr 2
        field_simp
      · rw [neg_mul, Real.sin_neg, Real.cos_neg]
        congr 2
        field_simp
  rw [e]
  have hl : HasDerivAt (fun t : ℝ => t * ‖ξ‖) ‖ξ‖ 0 := by simpa using (hasDerivAt_id (0 : ℝ)).mul_const ‖ξ‖
  have h1 := ((hl.sin.div_const ‖ξ‖).smul_const ξ).add (hl.cos.smul_const x)
  refine h1.congr_deriv ?_
  simp [hn]

end Verif.Sphere
