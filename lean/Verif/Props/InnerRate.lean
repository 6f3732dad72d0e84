import Verif.Props.QuadRate
import Verif.Props.TRQuad
import Mathlib.Analysis.Complex.ExponentialBounds

/-!
# C177: how many Hessian actions one iteration of the Newton solvers takes
-/

namespace Verif.QuadCG

open scoped RealInnerProductSpace

variable {E : Type*} [NormedAddCommGroup E] [InnerProductSpace ℝ E]

/-- The residual of the conjugate gradient method. -/
theorem cg_residual [FiniteDimensional ℝ E] {A : E →ₗ[ℝ] E} {b x0 z : E} (hA : SPD A) (hz : A z = b) (k : Nat) {m M : ℝ} (h0 : 0 < m)
    (hmM : m < M) (hlo : ∀ v, m * ‖v‖ ^ 2 ≤ ⟪v, A v⟫) (hhi : ∀ v, ⟪v, A v⟫ ≤ M * ‖v‖ ^ 2) :
    ‖(linearCG A b x0 k).r‖ ≤ 2 * √(M / m) * ((√(M / m) - 1) / (√(M / m) + 1)) ^ k * ‖b - A x0‖ := by
  have hM : 0 < M := by linarith
  have h1 := cg_rate (x0 := x0) hA hz k h0 hmM hlo hhi
  -- upper bound
  have hup : ∀ e, ‖A e‖ ^ 2 ≤ M * ⟪e, A e⟫ := by
    intro e
    have hq := quad_nonneg hA (e - (1 / M) • A e)
    rw [map_sub, map_smul, inner_sub_left, inner_sub_right, inner_sub_right, inner_smul_left, inner_smul_right, inner_smul_left,
      inner_smul_right, ← hA.1 e (A e), real_inner_self_eq_norm_sq] at hq
    simp only [conj_trivial] at hq
    have h2 := hhi (A e)
    have h3 : 1 / M * (1 / M * ⟪A e, A (A e)⟫) ≤ 1 / M * (1 / M * (M * ‖A e‖ ^ 2)) := by gcongr
    have h4 : 1 / M * (1 / M * (M * ‖A e‖ ^ 2)) = 1 / M * ‖A e‖ ^ 2 := by field_simp
    have h5 : 1 / M * ‖A e‖ ^ 2 ≤ ⟪e, A e⟫ := by linarith
    have h6 := mul_le_mul_of_nonneg_left h5 hM.le
    have h7 : M * (1 / M * ‖A e‖ ^ 2) = ‖A e‖ ^ 2 := by field_simp
    linarith
  -- lower bound
  have hdn : ∀ e, ⟪e, A e⟫ ≤ ‖A e‖ ^ 2 / m := by
    intro e
    have hcs := real_inner_le_norm e (A e)
    have h2 := hlo e
    rw [le_div_iff₀ h0]
    rcases (norm_nonneg e).lt_or_eq with hn | hn
    · have : m * ‖e‖ ≤ ‖A e‖ := by
        by_contra hc
        push Not at hc
        nlinarith [mul_lt_mul_of_pos_right hc hn]
      nlinarith [mul_le_mul_of_nonneg_right this (norm_nonneg (A e))]
    · rw [← hn, zero_mul] at hcs
      nlinarith [sq_nonneg ‖A e‖]
  set ρ := (√(M / m) - 1) / (√(M / m) + 1) with hρ
  have hκ1 : 1 < √(M / m) := Real.lt_sqrt_of_sq_lt (by rw [one_pow]; exact (one_lt_div h0).mpr hmM)
  have hρ0 : 0 ≤ ρ := div_nonneg (by linarith) (by linarith)
  have hκ2 : √(M / m) ^ 2 = M / m := Real.sq_sqrt (by positivity)
  set x := (linearCG A b x0 k).x
  have e1 := cost_sub hA hz (x - z)
  have e2 := cost_sub hA hz (x0 - z)
  rw [add_sub_cancel] at e1 e2
  rw [e1, e2] at h1
  have u := hup (x - z)
  have d := hdn (x0 - z)
  have n1 : ‖A (x - z)‖ = ‖(linearCG A b x0 k).r‖ := by rw [residual, map_sub, hz, norm_sub_rev]
  have n2 : ‖A (x0 - z)‖ = ‖b - A x0‖ := by rw [map_sub, hz, norm_sub_rev]
  rw [n1] at u
  rw [n2] at d
  refine abs_le_of_sq_le_sq' ?_ (by positivity) |>.2
  have hp : 0 ≤ 4 * ρ ^ (2 * k) := by positivity
  have h3 : ⟪x - z, A (x - z)⟫ ≤ 4 * ρ ^ (2 * k) * (‖b - A x0‖ ^ 2 / m) := by
    have := mul_le_mul_of_nonneg_left d hp
    linarith
  have h4 := mul_le_mul_of_nonneg_left h3 hM.le
  calc ‖(linearCG A b x0 k).r‖ ^ 2 ≤ M * (4 * ρ ^ (2 * k) * (‖b - A x0‖ ^ 2 / m)) := u.trans h4
    _ = 4 * (M / m) * ρ ^ (2 * k) * ‖b - A x0‖ ^ 2 := by ring
    _ = _ := by rw [mul_pow, mul_pow, mul_pow, hκ2, ← pow_mul, mul_comm k 2]; ring

end Verif.QuadCG

namespace Verif.TR

open scoped RealInnerProductSpace Classical
open Verif.QuadCG (linearCG SPD al be r_succ x_succ p_succ)

variable {E : Type*} [NormedAddCommGroup E] [InnerProductSpace ℝ E] {L : Local E}

/-- The state of the inner loop is that of the textbook method for `H x = -g`. -/
structure Tracks (L : Local E) (s : CG E) (j : Nat) : Prop where
  eta : s.eta = (linearCG L.H (-L.g) 0 j).x
  r : s.r = -(linearCG L.H (-L.g) 0 j).r
  delta : s.delta = (linearCG L.H (-L.g) 0 j).p
  zr : s.zr = ‖(linearCG L.H (-L.g) 0 j).r‖ ^ 2

theorem tracks_start (hP : ∀ v, L.P v = v) : Tracks L L.start 0 := by
  have e : (linearCG L.H (-L.g) 0 0).r = -L.g := by simp [linearCG]
  refine ⟨rfl, ?_, ?_, ?_⟩
  · rw [e, neg_neg]; rfl
  · show -L.P L.g = (linearCG L.H (-L.g) 0 0).r
    rw [e, hP]
  · show ⟪L.P L.g, L.g⟫ = _
    rw [e, hP, norm_neg, real_inner_self_eq_norm_sq]

theorem Tracks.move {s : CG E} {j : Nat} (h : Tracks L s j) :
    (cgMove L s (s.zr / ⟪s.delta, L.H s.delta⟫)).r = -(linearCG L.H (-L.g) 0 (j + 1)).r := by
  show s.r + (s.zr / ⟪s.delta, L.H s.delta⟫) • L.H s.delta = _
  rw [h.r, h.zr, h.delta, r_succ, al]
  abel

theorem Tracks.step {s : CG E} {j : Nat} (h : Tracks L s j) (hP : ∀ v, L.P v = v) (mv t : ℝ) :
    Tracks L (cgDir L { cgMove L s (s.zr / ⟪s.delta, L.H s.delta⟫) with modelv := mv } (s.zr / ⟪s.delta, L.H s.delta⟫) t) (j + 1) := by
  have hz : ⟪L.P (cgMove L s (s.zr / ⟪s.delta, L.H s.delta⟫)).r, (cgMove L s (s.zr / ⟪s.delta, L.H s.delta⟫)).r⟫
      = ‖(linearCG L.H (-L.g) 0 (j + 1)).r‖ ^ 2 := by
    rw [hP, h.move, real_inner_self_eq_norm_sq, norm_neg]
  refine ⟨?_, h.move, ?_, hz⟩
  · show s.eta + (s.zr / ⟪s.delta, L.H s.delta⟫) • s.delta = _
    rw [h.eta, h.zr, h.delta, x_succ, al]
  · show (⟪L.P (cgMove L s (s.zr / ⟪s.delta, L.H s.delta⟫)).r, (cgMove L s (s.zr / ⟪s.delta, L.H s.delta⟫)).r⟫ / s.zr) • s.delta
      - L.P (cgMove L s (s.zr / ⟪s.delta, L.H s.delta⟫)).r = _
    rw [hz, hP, h.move, h.zr, h.delta, p_succ, be]
    abel

/-- A property of the states that makes the residual small after `N` passes limits the passes of the inner solver. -/
theorem tcg_limit (T : Nat → CG E → Prop) (hstart : T 0 L.start)
    (hstep : ∀ j s, T j s → ∀ mv t, T (j + 1) (cgDir L { cgMove L s (s.zr / ⟪s.delta, L.H s.delta⟫) with modelv := mv } (s.zr / ⟪s.delta, L.H s.delta⟫) t))
    (N : Nat) (hsmall : ∀ j s, N ≤ j → T j s → ‖s.r‖ ≤ L.tol) (hmin : L.minInner = 0) (hN0 : 1 ≤ N) (maxInner : Nat) (hmax : N ≤ maxInner) :
    tCG L maxInner = tCG L N ∧ ∀ eta, tCG L maxInner ≠ some (eta, .maxIter) := by
  have key : ∀ (n j : Nat) (s : CG E), T j s → N ≤ j + n → (j = 0 ∨ ¬ ‖s.r‖ ≤ L.tol) → ∀ n', n ≤ n' →
      tcg L n' j s = tcg L n j s ∧ ∀ eta, tcg L n j s ≠ some (eta, .maxIter) := by
    intro n
    induction n with
    | zero =>
      intro j s hs hj hne
      exfalso
      rcases hne with rfl | hne
      · omega
      · exact hne (hsmall j s (by omega) hs)
    | succ n ih =>
      intro j s hs hj _ n' hn'
      obtain ⟨n', rfl⟩ : ∃ k, n' = k + 1 := ⟨n' - 1, by omega⟩
      simp only [tcg]
      by_cases hexit : ⟪s.delta, L.H s.delta⟫ ≤ 0 ∨ L.Delta * L.Delta ≤ ePeNew s (s.zr / ⟪s.delta, L.H s.delta⟫)
      · rw [if_pos hexit, if_pos hexit]
        refine ⟨rfl, fun eta he => ?_⟩
        rw [Option.map_eq_some_iff] at he
        obtain ⟨t, -, he⟩ := he
        have := congrArg Prod.snd he
        simp only at this
        split at this <;> cases this
      · rw [if_neg hexit, if_neg hexit]
        split
        · exact ⟨rfl, fun eta he => by cases he⟩
        · split
          · refine ⟨rfl, fun eta he => ?_⟩
            have := congrArg Prod.snd (Option.some.inj he)
            simp only [Local.conv] at this
            split at this <;> cases this
          · rename_i hconv
            split
            · exact ⟨rfl, fun eta he => by cases he⟩
            · exact ih (j + 1) _ (hstep j s hs _ _) (by omega) (.inr fun hle => hconv ⟨by omega, hle⟩) n' (by omega)
  obtain ⟨h1, h2⟩ := key N 0 L.start hstart (by omega) (.inl rfl) maxInner hmax
  unfold tCG
  exact ⟨h1, by rw [h1]; exact h2⟩

theorem tcgLS_limit (T : Nat → CG E → Prop) (hstart : T 0 L.start)
    (hstep : ∀ j s, T j s → ∀ mv t, T (j + 1) (cgDir L { cgMove L s (s.zr / ⟪s.delta, L.H s.delta⟫) with modelv := mv } (s.zr / ⟪s.delta, L.H s.delta⟫) t))
    (N : Nat) (hsmall : ∀ j s, N ≤ j → T j s → ‖s.r‖ ≤ L.tol) (hmin : L.minInner = 0) (hN0 : 1 ≤ N) (eps : ℝ) (maxInner : Nat)
    (hmax : N ≤ maxInner) :
    newtonDir L eps maxInner = newtonDir L eps N ∧
      ∀ eta d k, tcgLS L eps maxInner 0 L.start = some (eta, d, k, .maxIter) → False := by
  have key : ∀ (n j : Nat) (s : CG E), T j s → N ≤ j + n → (j = 0 ∨ ¬ ‖s.r‖ ≤ L.tol) → ∀ n', n ≤ n' →
      tcgLS L eps n' j s = tcgLS L eps n j s ∧ ∀ eta d k, tcgLS L eps n j s = some (eta, d, k, .maxIter) → False := by
    intro n
    induction n with
    | zero =>
      intro j s hs hj hne
      exfalso
      rcases hne with rfl | hne
      · omega
      · exact hne (hsmall j s (by omega) hs)
    | succ n ih =>
      intro j s hs hj _ n' hn'
      obtain ⟨n', rfl⟩ : ∃ k, n' = k + 1 := ⟨n' - 1, by omega⟩
      simp only [tcgLS]
      split
      · exact ⟨rfl, fun eta d k he => by cases he⟩
      · split
        · exact ⟨rfl, fun eta d k he => by cases he⟩
        · split
          · refine ⟨rfl, fun eta d k he => ?_⟩
            have := congrArg (fun x => x.2.2.2) (Option.some.inj he)
            simp only [Local.conv] at this
            split at this <;> cases this
          · rename_i hconv
            split
            · exact ⟨rfl, fun eta d k he => by cases he⟩
            · exact ih (j + 1) _ (hstep j s hs _ _) (by omega) (.inr fun hle => hconv ⟨by omega, hle⟩) n' (by omega)
  obtain ⟨h1, h2⟩ := key N 0 L.start hstart (by omega) (.inl rfl) maxInner hmax
  refine ⟨?_, by rw [h1]; exact h2⟩
  unfold newtonDir
  rw [h1]

theorem tol_ge {τ : ℝ} (hτ1 : τ ≤ ‖L.g‖ ^ L.theta) (hτ2 : τ ≤ L.kappa) : ‖L.g‖ * τ ≤ L.tol := by
  unfold Local.tol
  dsimp only
  refine mul_le_mul_of_nonneg_left ?_ (norm_nonneg _)
  split <;> assumption

/-- How many passes make the residual small enough. -/
theorem enough [FiniteDimensional ℝ E] (hH : SPD L.H) {w : E} (hw : L.g + L.H w = 0) {m M : ℝ} (h0 : 0 < m) (hmM : m < M)
    (hlo : ∀ v, m * ‖v‖ ^ 2 ≤ ⟪v, L.H v⟫) (hhi : ∀ v, ⟪v, L.H v⟫ ≤ M * ‖v‖ ^ 2) {τ : ℝ} (hτ : 0 < τ) (htol : ‖L.g‖ * τ ≤ L.tol) (j : Nat)
    (hj : (√(M / m) + 1) / 2 * Real.log (2 * √(M / m) / τ) ≤ j) : ‖(linearCG L.H (-L.g) 0 j).r‖ ≤ L.tol := by
  have hr := Verif.QuadCG.cg_residual (x0 := 0) (z := w) hH (b := -L.g) (by rw [eq_neg_iff_add_eq_zero, add_comm]; exact hw) j h0 hmM hlo hhi
  rw [map_zero, sub_zero, norm_neg] at hr
  refine hr.trans (le_trans ?_ htol)
  rw [mul_comm]
  refine mul_le_mul_of_nonneg_left ?_ (norm_nonneg _)
  set κ := √(M / m)
  have hκ1 : 1 < κ := Real.lt_sqrt_of_sq_lt (by rw [one_pow]; exact (one_lt_div h0).mpr hmM)
  have hκp : 0 < κ + 1 := by linarith
  have e : (κ - 1) / (κ + 1) = -(2 / (κ + 1)) + 1 := by field_simp; ring
  have hexp : (κ - 1) / (κ + 1) ≤ Real.exp (-(2 / (κ + 1))) := by rw [e]; exact Real.add_one_le_exp _
  have hpow : ((κ - 1) / (κ + 1)) ^ j ≤ Real.exp (-(2 / (κ + 1))) ^ j :=
    pow_le_pow_left₀ (div_nonneg (by linarith) hκp.le) hexp _
  rw [← Real.exp_nat_mul] at hpow
  have hlog : (j : ℝ) * (-(2 / (κ + 1))) ≤ -Real.log (2 * κ / τ) := by
    have h1 : Real.log (2 * κ / τ) ≤ 2 * j / (κ + 1) := by
      rw [le_div_iff₀ hκp]
      linarith
    have h2 : (j : ℝ) * (-(2 / (κ + 1))) = -(2 * j / (κ + 1)) := by ring
    rw [h2]; linarith
  have h4 : Real.exp (-Real.log (2 * κ / τ)) = τ / (2 * κ) := by
    rw [Real.exp_neg, Real.exp_log (by positivity), inv_div]
  have h5 := hpow.trans (Real.exp_le_exp.mpr hlog)
  rw [h4, le_div_iff₀ (by linarith)] at h5
  linarith

/-- **C177.** Where the Hessian is positive definite with curvatures between `m` and `M`, the inner solver of the trust-region Newton
solver without preconditioner makes at most `N` passes, one Hessian action each, as soon as `N` is at least one and at least
`(√κ + 1) / 2 * log (2 √κ / τ)`, `κ = M / m`, where `τ` is the relative accuracy asked for: a larger limit changes nothing and the limit is not
the reason for ending. The dimension does not matter. -/
theorem C177_trust_region [FiniteDimensional ℝ E] (hP : ∀ v, L.P v = v) (hH : SPD L.H) {w : E} (hw : L.g + L.H w = 0)
    {m M : ℝ} (h0 : 0 < m) (hmM : m < M) (hlo : ∀ v, m * ‖v‖ ^ 2 ≤ ⟪v, L.H v⟫) (hhi : ∀ v, ⟪v, L.H v⟫ ≤ M * ‖v‖ ^ 2)
    (hmin : L.minInner = 0) {τ : ℝ} (hτ : 0 < τ) (hτ1 : τ ≤ ‖L.g‖ ^ L.theta) (hτ2 : τ ≤ L.kappa) (N : Nat) (hN0 : 1 ≤ N)
    (hN : (√(M / m) + 1) / 2 * Real.log (2 * √(M / m) / τ) ≤ N) (maxInner : Nat) (hmax : N ≤ maxInner) :
    tCG L maxInner = tCG L N ∧ ∀ eta, tCG L maxInner ≠ some (eta, .maxIter) := by
  refine tcg_limit (fun j s => Tracks L s j) (tracks_start hP) (fun j s h mv t => h.step hP mv t) N (fun j s hj h => ?_) hmin hN0 maxInner hmax
  rw [h.r, norm_neg]
  exact enough hH hw h0 hmM hlo hhi hτ (tol_ge hτ1 hτ2) j (hN.trans (by exact_mod_cast hj))

/-- **C177.** The same of the inner solver of RNewton. -/
theorem C177_newton [FiniteDimensional ℝ E] (hP : ∀ v, L.P v = v) (hH : SPD L.H) {w : E} (hw : L.g + L.H w = 0)
    {m M : ℝ} (h0 : 0 < m) (hmM : m < M) (hlo : ∀ v, m * ‖v‖ ^ 2 ≤ ⟪v, L.H v⟫) (hhi : ∀ v, ⟪v, L.H v⟫ ≤ M * ‖v‖ ^ 2)
    (hmin : L.minInner = 0) {τ : ℝ} (hτ : 0 < τ) (hτ1 : τ ≤ ‖L.g‖ ^ L.theta) (hτ2 : τ ≤ L.kappa) (N : Nat) (hN0 : 1 ≤ N)
    (hN : (√(M / m) + 1) / 2 * Real.log (2 * √(M / m) / τ) ≤ N) (eps : ℝ) (maxInner : Nat) (hmax : N ≤ maxInner) :
    newtonDir L eps maxInner = newtonDir L eps N ∧
      ∀ eta d k, tcgLS L eps maxInner 0 L.start = some (eta, d, k, .maxIter) → False := by
  refine tcgLS_limit (fun j s => Tracks L s j) (tracks_start hP) (fun j s h mv t => h.step hP mv t) N (fun j s hj h => ?_) hmin hN0 eps maxInner hmax
  rw [h.r, norm_neg]
  exact enough hH hw h0 hmM hlo hhi hτ (tol_ge hτ1 hτ2) j (hN.trans (by exact_mod_cast hj))

/-! ### With a preconditioner -/

/-- The square root of a positive definite operator. -/
theorem exists_root [FiniteDimensional ℝ E] {P : E →ₗ[ℝ] E} (hP : SPD P) :
    ∃ R : E →ₗ[ℝ] E, (∀ v, R (R v) = P v) ∧ ∀ u v, ⟪R u, v⟫ = ⟪u, R v⟫ := by
  have hS : P.IsSymmetric := hP.1
  let u := hS.eigenvectorBasis (rfl : Module.finrank ℝ E = _)
  let l := hS.eigenvalues (rfl : Module.finrank ℝ E = _)
  have hPu : ∀ i, P (u i) = l i • u i := fun i => hS.apply_eigenvectorBasis rfl i
  have hl : ∀ i, 0 < l i := by
    intro i
    have h := hP.2 (u i) (u.orthonormal.ne_zero i)
    rw [hPu, inner_smul_right, real_inner_self_eq_norm_sq, u.orthonormal.1 i] at h
    linarith
  let R : E →ₗ[ℝ] E := u.toBasis.constr ℝ (fun i => √(l i) • u i)
  have hR : ∀ i, R (u i) = √(l i) • u i := by
    intro i
    have := u.toBasis.constr_basis ℝ (fun i => √(l i) • u i) i
    rwa [OrthonormalBasis.coe_toBasis] at this
  refine ⟨R, fun v => ?_, fun v w => ?_⟩
  · have : R ∘ₗ R = P := by
      refine u.toBasis.ext fun i => ?_
      rw [OrthonormalBasis.coe_toBasis, LinearMap.comp_apply, hR, map_smul, hR, smul_smul, Real.mul_self_sqrt (hl i).le, hPu]
    exact LinearMap.congr_fun this v
  · have hc : ∀ v i, ⟪u i, R v⟫ = √(l i) * ⟪u i, v⟫ := by
      intro v i
      have : (innerₛₗ ℝ (u i)) ∘ₗ R = √(l i) • innerₛₗ ℝ (u i) := by
        refine u.toBasis.ext fun k => ?_
        rw [OrthonormalBasis.coe_toBasis, LinearMap.comp_apply, hR, LinearMap.smul_apply, innerₛₗ_apply_apply, innerₛₗ_apply_apply,
          inner_smul_right, smul_eq_mul, u.inner_eq_ite]
        split
        · rename_i h; rw [h]
        · simp
      exact LinearMap.congr_fun this v
    rw [← u.sum_inner_mul_inner (R v) w, ← u.sum_inner_mul_inner v (R w)]
    refine Finset.sum_congr rfl fun i _ => ?_
    rw [real_inner_comm, hc, hc, real_inner_comm (u i) v]
    ring

/-- The states in the coordinates of the square root. -/
structure TracksR (L : Local E) (R : E →ₗ[ℝ] E) (s : CG E) (j : Nat) : Prop where
  r : R s.r = -(linearCG (R ∘ₗ L.H ∘ₗ R) (-R L.g) 0 j).r
  delta : s.delta = R (linearCG (R ∘ₗ L.H ∘ₗ R) (-R L.g) 0 j).p
  zr : s.zr = ‖(linearCG (R ∘ₗ L.H ∘ₗ R) (-R L.g) 0 j).r‖ ^ 2

section
variable {R : E →ₗ[ℝ] E}

theorem rootInner (hR : ∀ v, R (R v) = L.P v) (hs : ∀ u v, ⟪R u, v⟫ = ⟪u, R v⟫) (v : E) : ⟪L.P v, v⟫ = ‖R v‖ ^ 2 := by
  rw [← hR, hs, real_inner_self_eq_norm_sq]

theorem tracksR_start (hR : ∀ v, R (R v) = L.P v) (hs : ∀ u v, ⟪R u, v⟫ = ⟪u, R v⟫) : TracksR L R L.start 0 := by
  have e : (linearCG (R ∘ₗ L.H ∘ₗ R) (-R L.g) 0 0).r = -R L.g := by simp [linearCG]
  refine ⟨?_, ?_, ?_⟩
  · rw [e, neg_neg]; rfl
  · show -L.P L.g = R (linearCG (R ∘ₗ L.H ∘ₗ R) (-R L.g) 0 0).r
    rw [e, map_neg, hR]
  · show ⟪L.P L.g, L.g⟫ = _
    rw [e, norm_neg, rootInner hR hs]

theorem TracksR.alpha {s : CG E} {j : Nat} (h : TracksR L R s j) (hs : ∀ u v, ⟪R u, v⟫ = ⟪u, R v⟫) :
    s.zr / ⟪s.delta, L.H s.delta⟫ = al (R ∘ₗ L.H ∘ₗ R) (-R L.g) 0 j := by
  rw [h.zr, h.delta, hs, al]; rfl

theorem TracksR.move {s : CG E} {j : Nat} (h : TracksR L R s j) (hs : ∀ u v, ⟪R u, v⟫ = ⟪u, R v⟫) :
    R (cgMove L s (s.zr / ⟪s.delta, L.H s.delta⟫)).r = -(linearCG (R ∘ₗ L.H ∘ₗ R) (-R L.g) 0 (j + 1)).r := by
  show R (s.r + (s.zr / ⟪s.delta, L.H s.delta⟫) • L.H s.delta) = _
  rw [h.alpha hs, map_add, map_smul, h.r, h.delta, r_succ]
  simp only [LinearMap.comp_apply]
  abel

theorem TracksR.step {s : CG E} {j : Nat} (h : TracksR L R s j) (hR : ∀ v, R (R v) = L.P v) (hs : ∀ u v, ⟪R u, v⟫ = ⟪u, R v⟫)
    (mv t : ℝ) :
    TracksR L R (cgDir L { cgMove L s (s.zr / ⟪s.delta, L.H s.delta⟫) with modelv := mv } (s.zr / ⟪s.delta, L.H s.delta⟫) t) (j + 1) := by
  have hz : ⟪L.P (cgMove L s (s.zr / ⟪s.delta, L.H s.delta⟫)).r, (cgMove L s (s.zr / ⟪s.delta, L.H s.delta⟫)).r⟫
      = ‖(linearCG (R ∘ₗ L.H ∘ₗ R) (-R L.g) 0 (j + 1)).r‖ ^ 2 := by
    rw [rootInner hR hs, h.move hs, norm_neg]
  refine ⟨h.move hs, ?_, hz⟩
  show (⟪L.P (cgMove L s (s.zr / ⟪s.delta, L.H s.delta⟫)).r, (cgMove L s (s.zr / ⟪s.delta, L.H s.delta⟫)).r⟫ / s.zr) • s.delta
      - L.P (cgMove L s (s.zr / ⟪s.delta, L.H s.delta⟫)).r = _
  rw [hz, ← hR, h.move hs, h.zr, h.delta, p_succ, be, map_add, map_smul, map_neg]
  abel
end

theorem enoughR [FiniteDimensional ℝ E] {R : E →ₗ[ℝ] E} (hR : ∀ v, R (R v) = L.P v) (hs : ∀ u v, ⟪R u, v⟫ = ⟪u, R v⟫)
    (hP : SPD L.P) (hH : SPD L.H) {w : E} (hw : L.g + L.H w = 0) {m M : ℝ} (h0 : 0 < m) (hmM : m < M)
    (hlo : ∀ v, m * ⟪v, L.P v⟫ ≤ ⟪L.P v, L.H (L.P v)⟫) (hhi : ∀ v, ⟪L.P v, L.H (L.P v)⟫ ≤ M * ⟪v, L.P v⟫)
    {c C : ℝ} (hc : 0 < c) (hclo : ∀ v, c * ‖v‖ ^ 2 ≤ ⟪v, L.P v⟫) (hchi : ∀ v, ⟪v, L.P v⟫ ≤ C * ‖v‖ ^ 2)
    {τ : ℝ} (hτ : 0 < τ) (htol : ‖L.g‖ * τ ≤ L.tol) (hg : L.g ≠ 0) (j : Nat)
    (hj : (√(M / m) + 1) / 2 * Real.log (2 * √(M / m) * √(C / c) / τ) ≤ j) (s : CG E) (h : TracksR L R s j) : ‖s.r‖ ≤ L.tol := by
  have hinj : ∀ v, R v = 0 → v = 0 := by
    intro v hv
    by_contra hne
    have := hP.2 v hne
    rw [← hR, hv, map_zero, inner_zero_right] at this
    exact lt_irrefl _ this
  have hsurj : Function.Surjective R :=
    LinearMap.surjective_of_injective (f := R) ((injective_iff_map_eq_zero R).mpr hinj)
  have hin : ∀ v, ⟪v, L.P v⟫ = ‖R v‖ ^ 2 := fun v => by rw [real_inner_comm, rootInner hR hs]
  have hA : SPD (R ∘ₗ L.H ∘ₗ R) := by
    refine ⟨fun u v => ?_, fun v hv => ?_⟩
    · simp only [LinearMap.comp_apply]
      rw [hs, hH.1, hs]
    · simp only [LinearMap.comp_apply]
      rw [← hs]
      exact hH.2 _ (fun h => hv (hinj v h))
  have hRw : ∀ v, ⟪R v, (R ∘ₗ L.H ∘ₗ R) (R v)⟫ = ⟪L.P v, L.H (L.P v)⟫ := by
    intro v
    simp only [LinearMap.comp_apply]
    rw [← hs, hR]
  obtain ⟨z, hz⟩ := hsurj w
  have hsol : (R ∘ₗ L.H ∘ₗ R) z = -R L.g := by
    simp only [LinearMap.comp_apply]
    rw [hz, ← map_neg, (neg_eq_of_add_eq_zero_right hw)]
  have hr := Verif.QuadCG.cg_residual (x0 := 0) (z := z) hA hsol j h0 hmM
    (fun v => by obtain ⟨u, rfl⟩ := hsurj v; rw [hRw, ← hin]; exact hlo u)
    (fun v => by obtain ⟨u, rfl⟩ := hsurj v; rw [hRw, ← hin]; exact hhi u)
  rw [map_zero, sub_zero, norm_neg] at hr
  have hrR : ‖R s.r‖ = ‖(linearCG (R ∘ₗ L.H ∘ₗ R) (-R L.g) 0 j).r‖ := by rw [h.r, norm_neg]
  rw [← hrR] at hr
  have hgp : 0 < ‖L.g‖ := norm_pos_iff.mpr hg
  have hC : 0 < C := by
    have h1 := hclo L.g
    have h2 := hchi L.g
    have h3 : 0 < ‖L.g‖ ^ 2 := by positivity
    by_contra hn
    push Not at hn
    nlinarith [mul_pos hc h3, mul_nonneg (neg_nonneg.mpr hn) h3.le]
  -- lengths in the two norms
  have hl1 : √c * ‖s.r‖ ≤ ‖R s.r‖ := by
    refine abs_le_of_sq_le_sq' ?_ (norm_nonneg _) |>.2
    rw [mul_pow, Real.sq_sqrt hc.le, ← hin]
    exact hclo _
  have hl2 : ‖R L.g‖ ≤ √C * ‖L.g‖ := by
    refine abs_le_of_sq_le_sq' ?_ (by positivity) |>.2
    rw [mul_pow, Real.sq_sqrt hC.le, ← hin]
    exact hchi _
  refine le_trans ?_ htol
  set κ := √(M / m)
  have hκ1 : 1 < κ := Real.lt_sqrt_of_sq_lt (by rw [one_pow]; exact (one_lt_div h0).mpr hmM)
  have hκp : 0 < κ + 1 := by linarith
  have hCc : √(C / c) = √C / √c := Real.sqrt_div hC.le c
  have hsc : 0 < √c := Real.sqrt_pos.mpr hc
  have hsC : 0 < √C := Real.sqrt_pos.mpr hC
  have e : (κ - 1) / (κ + 1) = -(2 / (κ + 1)) + 1 := by field_simp; ring
  have hexp : (κ - 1) / (κ + 1) ≤ Real.exp (-(2 / (κ + 1))) := by rw [e]; exact Real.add_one_le_exp _
  have hpow : ((κ - 1) / (κ + 1)) ^ j ≤ Real.exp (-(2 / (κ + 1))) ^ j :=
    pow_le_pow_left₀ (div_nonneg (by linarith) hκp.le) hexp _
  rw [← Real.exp_nat_mul] at hpow
  have hlog : (j : ℝ) * (-(2 / (κ + 1))) ≤ -Real.log (2 * κ * √(C / c) / τ) := by
    have h1 : Real.log (2 * κ * √(C / c) / τ) ≤ 2 * j / (κ + 1) := by
      rw [le_div_iff₀ hκp]
      linarith
    have h2 : (j : ℝ) * (-(2 / (κ + 1))) = -(2 * j / (κ + 1)) := by ring
    rw [h2]; linarith
  have hq : 0 < √(C / c) := Real.sqrt_pos.mpr (div_pos hC hc)
  have h4 : Real.exp (-Real.log (2 * κ * √(C / c) / τ)) = τ / (2 * κ * √(C / c)) := by
    rw [Real.exp_neg, Real.exp_log (by positivity), inv_div]
  have h5 := hpow.trans (Real.exp_le_exp.mpr hlog)
  rw [h4, hCc, le_div_iff₀ (by positivity)] at h5
  have hp : 0 ≤ ((κ - 1) / (κ + 1)) ^ j := pow_nonneg (div_nonneg (by linarith) hκp.le) _
  have h6 : √c * ‖s.r‖ ≤ 2 * κ * ((κ - 1) / (κ + 1)) ^ j * (√C * ‖L.g‖) :=
    hl1.trans (hr.trans (mul_le_mul_of_nonneg_left hl2 (by positivity)))
  have h7 : 2 * κ * ((κ - 1) / (κ + 1)) ^ j * (√C * ‖L.g‖) = √c * (‖L.g‖ * (((κ - 1) / (κ + 1)) ^ j * (2 * κ * (√C / √c)))) := by
    field_simp
  rw [h7] at h6
  exact (le_of_mul_le_mul_left h6 hsc).trans (mul_le_mul_of_nonneg_left h5 hgp.le)

/-- **C177.** With a positive definite preconditioner the curvatures that matter are those of the preconditioned Hessian (`m` and `M`, relative
to the preconditioner); the condition number `C / c` of the preconditioner enters the logarithm only. -/
theorem C177_trust_region_preconditioned [FiniteDimensional ℝ E] (hP : SPD L.P) (hH : SPD L.H) {w : E} (hw : L.g + L.H w = 0) (hg : L.g ≠ 0)
    {m M : ℝ} (h0 : 0 < m) (hmM : m < M) (hlo : ∀ v, m * ⟪v, L.P v⟫ ≤ ⟪L.P v, L.H (L.P v)⟫) (hhi : ∀ v, ⟪L.P v, L.H (L.P v)⟫ ≤ M * ⟪v, L.P v⟫)
    {c C : ℝ} (hc : 0 < c) (hclo : ∀ v, c * ‖v‖ ^ 2 ≤ ⟪v, L.P v⟫) (hchi : ∀ v, ⟪v, L.P v⟫ ≤ C * ‖v‖ ^ 2)
    (hmin : L.minInner = 0) {τ : ℝ} (hτ : 0 < τ) (hτ1 : τ ≤ ‖L.g‖ ^ L.theta) (hτ2 : τ ≤ L.kappa) (N : Nat) (hN0 : 1 ≤ N)
    (hN : (√(M / m) + 1) / 2 * Real.log (2 * √(M / m) * √(C / c) / τ) ≤ N) (maxInner : Nat) (hmax : N ≤ maxInner) :
    tCG L maxInner = tCG L N ∧ ∀ eta, tCG L maxInner ≠ some (eta, .maxIter) := by
  obtain ⟨R, hR, hs⟩ := exists_root hP
  exact tcg_limit (fun j s => TracksR L R s j) (tracksR_start hR hs) (fun j s h mv t => h.step hR hs mv t) N
    (fun j s hj h => enoughR hR hs hP hH hw h0 hmM hlo hhi hc hclo hchi hτ (tol_ge hτ1 hτ2) hg j (hN.trans (by exact_mod_cast hj)) s h)
    hmin hN0 maxInner hmax

/-- **C177.** The same of RNewton. -/
theorem C177_newton_preconditioned [FiniteDimensional ℝ E] (hP : SPD L.P) (hH : SPD L.H) {w : E} (hw : L.g + L.H w = 0) (hg : L.g ≠ 0)
    {m M : ℝ} (h0 : 0 < m) (hmM : m < M) (hlo : ∀ v, m * ⟪v, L.P v⟫ ≤ ⟪L.P v, L.H (L.P v)⟫) (hhi : ∀ v, ⟪L.P v, L.H (L.P v)⟫ ≤ M * ⟪v, L.P v⟫)
    {c C : ℝ} (hc : 0 < c) (hclo : ∀ v, c * ‖v‖ ^ 2 ≤ ⟪v, L.P v⟫) (hchi : ∀ v, ⟪v, L.P v⟫ ≤ C * ‖v‖ ^ 2)
    (hmin : L.minInner = 0) {τ : ℝ} (hτ : 0 < τ) (hτ1 : τ ≤ ‖L.g‖ ^ L.theta) (hτ2 : τ ≤ L.kappa) (N : Nat) (hN0 : 1 ≤ N)
    (hN : (√(M / m) + 1) / 2 * Real.log (2 * √(M / m) * √(C / c) / τ) ≤ N) (eps : ℝ) (maxInner : Nat) (hmax : N ≤ maxInner) :
    newtonDir L eps maxInner = newtonDir L eps N ∧
      ∀ eta d k, tcgLS L eps maxInner 0 L.start = some (eta, d, k, .maxIter) → False := by
  obtain ⟨R, hR, hs⟩ := exists_root hP
  exact tcgLS_limit (fun j s => TracksR L R s j) (tracksR_start hR hs) (fun j s h mv t => h.step hR hs mv t) N
    (fun j s hj h => enoughR hR hs hP hH hw h0 hmM hlo hhi hc hclo hchi hτ (tol_ge hτ1 hτ2) hg j (hN.trans (by exact_mod_cast hj)) s h)
    hmin hN0 eps maxInner hmax

/-- Curvatures one and four, default accuracy: the inner solver stops within six passes, whatever the radius. -/
example (Delta : ℝ) (maxInner : Nat) (h : 6 ≤ maxInner) :
    tCG ⟨!₂[1, 1], Verif.QuadCG.diagA 1 4, LinearMap.id, Delta, 1, 1 / 10, 0⟩ maxInner
      = tCG ⟨!₂[1, 1], Verif.QuadCG.diagA 1 4, LinearMap.id, Delta, 1, 1 / 10, 0⟩ 6 := by
  obtain ⟨h1, h2, h3, -⟩ := Verif.QuadCG.C176_steepest_sharp (m := 1) (M := 4) (by norm_num) (by norm_num) 0 .fletcherReeves 0
  have hg : (1 : ℝ) ≤ ‖(!₂[1, 1] : EuclideanSpace ℝ (Fin 2))‖ := by
    have := Verif.QuadCG.diagA_norm !₂[1, 1]
    norm_num at this
    nlinarith [norm_nonneg (!₂[1, 1] : EuclideanSpace ℝ (Fin 2))]
  have hs : √((4 : ℝ) / 1) = 2 := by rw [show (4 : ℝ) / 1 = 2 ^ 2 by norm_num]; exact Real.sqrt_sq (by norm_num)
  refine (C177_trust_region (L := ⟨!₂[1, 1], Verif.QuadCG.diagA 1 4, LinearMap.id, Delta, 1, 1 / 10, 0⟩) (fun _ => rfl) h1 (w := !₂[-1, -1 / 4]) ?_
    (by norm_num) (by norm_num) h2 h3 rfl (τ := 1 / 10) (by norm_num) ?_ le_rfl 6 (by norm_num) ?_ maxInner h).1
  · ext i
    fin_cases i
    · simp [Verif.QuadCG.diagA]
    · simp [Verif.QuadCG.diagA]; norm_num
  · show (1 : ℝ) / 10 ≤ _ ^ (1 : ℝ)
    rw [Real.rpow_one]
    show (1 : ℝ) / 10 ≤ ‖(!₂[1, 1] : EuclideanSpace ℝ (Fin 2))‖
    linarith
  · rw [hs]
    have h40 : Real.log (2 * 2 / (1 / 10)) ≤ 4 := by
      rw [Real.log_le_iff_le_exp (by norm_num)]
      have e1 := Real.exp_one_gt_d9
      have e4 : Real.exp 4 = Real.exp 1 ^ 4 := by rw [← Real.exp_nat_mul]; norm_num
      rw [e4]
      have : (2.6 : ℝ) ^ 4 ≤ Real.exp 1 ^ 4 := pow_le_pow_left₀ (by norm_num) (by linarith) 4
      norm_num at this ⊢
      linarith
    norm_num at h40 ⊢
    linarith

/-- Curvatures one and four hundred, with a preconditioner that scales the second coordinate by one hundredth: ten passes, in both solvers. -/
example (Delta eps : ℝ) (maxInner : Nat) (h : 10 ≤ maxInner) :
    tCG ⟨!₂[1, 1], Verif.QuadCG.diagA 1 400, Verif.QuadCG.diagA 1 (1 / 100), Delta, 1, 1 / 10, 0⟩ maxInner
      = tCG ⟨!₂[1, 1], Verif.QuadCG.diagA 1 400, Verif.QuadCG.diagA 1 (1 / 100), Delta, 1, 1 / 10, 0⟩ 10 ∧
    newtonDir ⟨!₂[1, 1], Verif.QuadCG.diagA 1 400, Verif.QuadCG.diagA 1 (1 / 100), Delta, 1, 1 / 10, 0⟩ eps maxInner
      = newtonDir ⟨!₂[1, 1], Verif.QuadCG.diagA 1 400, Verif.QuadCG.diagA 1 (1 / 100), Delta, 1, 1 / 10, 0⟩ eps 10 := by
  have hgn : (1 : ℝ) ≤ ‖(!₂[1, 1] : EuclideanSpace ℝ (Fin 2))‖ := by
    have := Verif.QuadCG.diagA_norm !₂[1, 1]
    norm_num at this
    nlinarith [norm_nonneg (!₂[1, 1] : EuclideanSpace ℝ (Fin 2))]
  have hg : (!₂[1, 1] : EuclideanSpace ℝ (Fin 2)) ≠ 0 := fun h0 => by rw [h0, norm_zero] at hgn; linarith
  have hw : (!₂[1, 1] : EuclideanSpace ℝ (Fin 2)) + Verif.QuadCG.diagA 1 400 !₂[-1, -1 / 400] = 0 := by
    ext i
    fin_cases i
    · simp [Verif.QuadCG.diagA]
    · simp [Verif.QuadCG.diagA]; norm_num
  have hPP : ∀ v, ⟪Verif.QuadCG.diagA 1 (1 / 100) v, Verif.QuadCG.diagA 1 400 (Verif.QuadCG.diagA 1 (1 / 100) v)⟫
      = v 0 * v 0 + 1 / 25 * (v 1 * v 1) := by
    intro v
    rw [Verif.QuadCG.diagA_inner]
    simp [Verif.QuadCG.diagA]; ring
  have hlo : ∀ v, 1 * ⟪v, Verif.QuadCG.diagA 1 (1 / 100) v⟫
      ≤ ⟪Verif.QuadCG.diagA 1 (1 / 100) v, Verif.QuadCG.diagA 1 400 (Verif.QuadCG.diagA 1 (1 / 100) v)⟫ := by
    intro v; rw [hPP, Verif.QuadCG.diagA_inner]; nlinarith [mul_self_nonneg (v 1)]
  have hhi : ∀ v, ⟪Verif.QuadCG.diagA 1 (1 / 100) v, Verif.QuadCG.diagA 1 400 (Verif.QuadCG.diagA 1 (1 / 100) v)⟫
      ≤ 4 * ⟪v, Verif.QuadCG.diagA 1 (1 / 100) v⟫ := by
    intro v; rw [hPP, Verif.QuadCG.diagA_inner]; nlinarith [mul_self_nonneg (v 0)]
  have hclo : ∀ v, 1 / 100 * ‖v‖ ^ 2 ≤ ⟪v, Verif.QuadCG.diagA 1 (1 / 100) v⟫ := by
    intro v; rw [Verif.QuadCG.diagA_norm, Verif.QuadCG.diagA_inner]; nlinarith [mul_self_nonneg (v 0)]
  have hchi : ∀ v, ⟪v, Verif.QuadCG.diagA 1 (1 / 100) v⟫ ≤ 1 * ‖v‖ ^ 2 := by
    intro v; rw [Verif.QuadCG.diagA_norm, Verif.QuadCG.diagA_inner]; nlinarith [mul_self_nonneg (v 1)]
  have hτ : (1 : ℝ) / 10 ≤ ‖(!₂[1, 1] : EuclideanSpace ℝ (Fin 2))‖ ^ (1 : ℝ) := by rw [Real.rpow_one]; linarith
  have hN : (√((4 : ℝ) / 1) + 1) / 2 * Real.log (2 * √((4 : ℝ) / 1) * √(1 / (1 / 100)) / (1 / 10)) ≤ ((10 : Nat) : ℝ) := by
    rw [show (4 : ℝ) / 1 = 2 ^ 2 by norm_num, show (1 : ℝ) / (1 / 100) = 10 ^ 2 by norm_num, Real.sqrt_sq (by norm_num), Real.sqrt_sq (by norm_num)]
    have h1 : Real.log (2 * 2 * 10 / (1 / 10)) ≤ Real.log ((2 : ℝ) ^ 9) := Real.log_le_log (by norm_num) (by norm_num)
    rw [Real.log_pow] at h1
    have := Real.log_two_lt_d9
    push_cast at h1 ⊢
    linarith
  exact ⟨(C177_trust_region_preconditioned (L := ⟨!₂[1, 1], Verif.QuadCG.diagA 1 400, Verif.QuadCG.diagA 1 (1 / 100), Delta, 1, 1 / 10, 0⟩)
      (Verif.QuadCG.diagA_spd (by norm_num) (by norm_num)) (Verif.QuadCG.diagA_spd (by norm_num) (by norm_num)) hw hg
      (by norm_num) (by norm_num) hlo hhi (by norm_num) hclo hchi rfl (by norm_num) hτ le_rfl 10 (by norm_num) hN maxInner h).1,
    (C177_newton_preconditioned (L := ⟨!₂[1, 1], Verif.QuadCG.diagA 1 400, Verif.QuadCG.diagA 1 (1 / 100), Delta, 1, 1 / 10, 0⟩)
      (Verif.QuadCG.diagA_spd (by norm_num) (by norm_num)) (Verif.QuadCG.diagA_spd (by norm_num) (by norm_num)) hw hg
      (by norm_num) (by norm_num) hlo hhi (by norm_num) hclo hchi rfl (by norm_num) hτ le_rfl 10 (by norm_num) hN eps maxInner h).1⟩

end Verif.TR
