import Verif.Solver.NewtonRun
import Verif.Props.TRLocal
import Verif.Props.InitStep
import Verif.Props.LRConverge
import Verif.Props.FirstTrial

/-!
# C121: convergence of the Newton line-search solver
-/

set_option linter.unusedSectionVars false
set_option linter.unusedVariables false

namespace Verif.TR

open scoped RealInnerProductSpace Classical
open Verif.QN (IsSym IsSPD)
open Verif.TRRun (Status)
open Module (finrank)

section inner
variable {E : Type*} [NormedAddCommGroup E] [InnerProductSpace ℝ E] {L : Local E} {M : E →ₗ[ℝ] E}

theorem CGInv.delta_g {K : Submodule ℝ E} {s : CG E} (h : CGInv L M K s) (hH : IsSym L.H) : ⟪s.delta, L.g⟫ = -s.zr := by
  have h1 := h.r_delta
  rw [h.r_eq, inner_add_left, hH, real_inner_comm, ] at h1
  have h2 := h.conj _ h.eta_mem
  rw [real_inner_comm] at h2
  linarith

/-- Decrease predicted for the first conjugate gradient step. -/
noncomputable def firstDec (L : Local E) : ℝ := ⟪L.P L.g, L.g⟫ ^ 2 / ⟪L.P L.g, L.H (L.P L.g)⟫

/-- The loop always returns a vector; from its second pass on the iterate is at least as good as the first step and orthogonal to its residual. -/
theorem tcgLS_shape (hH : IsSym L.H) (hP : IsSPD L.P) (hM : Inverse L.P M) {eps : ℝ} :
    ∀ (n j : Nat) (K : Submodule ℝ E) (s : CG E), CGInv L M K s → (s.r = 0 → s.delta = 0) → (j = 0 → s = L.start) → (0 < j → ⟪s.eta, L.g⟫ ≤ -firstDec L) →
      ∃ eta delta i st, tcgLS L eps n j s = some (eta, delta, i, st) ∧ j ≤ i ∧ (i = 0 → delta = -(L.P L.g)) ∧
        (i ≠ 0 → ⟪eta, L.g⟫ ≤ -firstDec L ∧ ⟪L.g + L.H eta, eta⟫ = 0) := by
  intro n
  induction n with
  | zero =>
    intro j K s h hr0 h0 h1
    refine ⟨_, _, _, _, rfl, le_rfl, fun hj => by rw [h0 hj]; rfl, fun hj => ⟨h1 (Nat.pos_of_ne_zero hj), ?_⟩⟩
    rw [← h.r_eq]; exact h.r_eta
  | succ n ih =>
    intro j K s h hr0 h0 h1
    have hdel : j = 0 → s.delta = -(L.P L.g) := fun hj => by rw [h0 hj]; rfl
    simp only [tcgLS]
    by_cases hd : ⟪s.delta, L.H s.delta⟫ ≤ 0
    · rw [if_pos hd]
      refine ⟨_, _, _, _, rfl, le_rfl, hdel, fun hj => ⟨h1 (Nat.pos_of_ne_zero hj), ?_⟩⟩
      rw [← h.r_eq]; exact h.r_eta
    · rw [if_neg hd]
      push Not at hd
      have hr : s.r ≠ 0 := by
        intro h0
        rw [hr0 h0] at hd
        simp at hd
      have hz := h.zr_pos hP hr
      set mv := ⟪s.eta + (s.zr / ⟪s.delta, L.H s.delta⟫) • s.delta, L.g⟫ + 1 / 2 * ⟪s.eta + (s.zr / ⟪s.delta, L.H s.delta⟫) • s.delta, (0 : E)⟫ with hmv
      have hinv := h.step hH hP hM hd hz mv
      simp only [] at hinv
      have heta : ⟪s.eta + (s.zr / ⟪s.delta, L.H s.delta⟫) • s.delta, L.g⟫ ≤ -firstDec L := by
        rw [inner_add_left, real_inner_smul_left, h.delta_g hH]
        have hq : 0 ≤ s.zr / ⟪s.delta, L.H s.delta⟫ * s.zr := by positivity
        rcases Nat.eq_zero_or_pos j with hj | hj
        · have hs := h0 hj
          apply le_of_eq
          rw [hs]
          simp only [Local.start, firstDec, inner_zero_left, map_neg, inner_neg_neg]
          ring
        · have := h1 hj
          linarith
      have horth : ⟪L.g + L.H (s.eta + (s.zr / ⟪s.delta, L.H s.delta⟫) • s.delta), s.eta + (s.zr / ⟪s.delta, L.H s.delta⟫) • s.delta⟫ = 0 := by
        have e1 := hinv.r_eta
        rw [hinv.r_eq] at e1
        exact e1
      split
      · exact ⟨_, _, _, _, rfl, le_rfl, hdel, fun _ => ⟨heta, horth⟩⟩
      · split
        · exact ⟨_, _, _, _, rfl, le_rfl, hdel, fun _ => ⟨heta, horth⟩⟩
        · rw [if_neg hz.ne']
          obtain ⟨eta, delta, i, st, e1, e2, e3, e4⟩ := ih (j + 1) _ _ hinv (by
            intro hr0'
            have hr0'' : s.r + (s.zr / ⟪s.delta, L.H s.delta⟫) • L.H s.delta = 0 := hr0'
            simp only [cgDir, cgMove, hr0'']
            simp) (fun hj => absurd hj (Nat.succ_ne_zero j)) (fun _ => heta)
          exact ⟨eta, delta, i, st, e1, by omega, e3, e4⟩

/-- With a positive definite Hessian and a cap that is not below the dimension the loop meets its residual test, unless the slope test of line 136 ends it. -/
theorem tcgLS_residual [FiniteDimensional ℝ E] (hH : IsSym L.H) (hP : IsSPD L.P) (hM : Inverse L.P M) (hpos : ∀ v, v ≠ 0 → 0 < ⟪v, L.H v⟫) (htol : 0 ≤ L.tol) {eps : ℝ} :
    ∀ (n j : Nat) (K : Submodule ℝ E) (s : CG E), CGInv L M K s → (s.r = 0 → s.delta = 0) → s.modelv = ⟪s.eta, L.g⟫ → (s.r = 0 ∨ finrank ℝ E ≤ finrank ℝ K + n) →
      ∀ eta delta i st, tcgLS L eps n j s = some (eta, delta, i, st) → ‖L.g + L.H eta‖ ≤ L.tol ∨ -eps ≤ ⟪eta, L.g⟫ := by
  intro n
  induction n with
  | zero =>
    intro j K s h hr0 hmv hdim eta delta i st hres
    simp only [tcgLS, Option.some.injEq, Prod.mk.injEq] at hres
    obtain ⟨rfl, rfl, rfl, rfl⟩ := hres
    left
    have hr : s.r = 0 := by
      rcases hdim with hr | hdim
      · exact hr
      · have htop : K = ⊤ := Submodule.eq_top_of_finrank_eq (le_antisymm (Submodule.finrank_le K) (by simpa using hdim))
        exact inner_self_eq_zero.mp (h.r_orth s.r (by rw [htop]; trivial))
    rw [← h.r_eq, hr, norm_zero]; exact htol
  | succ n ih =>
    intro j K s h hr0 hmv hdim eta delta i st hres
    simp only [tcgLS] at hres
    by_cases hd : ⟪s.delta, L.H s.delta⟫ ≤ 0
    · rw [if_pos hd] at hres
      simp only [Option.some.injEq, Prod.mk.injEq] at hres
      obtain ⟨rfl, rfl, rfl, rfl⟩ := hres
      left
      have hr : s.r = 0 := by
        by_contra hr
        exact absurd (hpos _ (h.delta_ne hP hr)) (not_lt.mpr hd)
      rw [← h.r_eq, hr, norm_zero]; exact htol
    · rw [if_neg hd] at hres
      push Not at hd
      have hr : s.r ≠ 0 := by
        intro h0
        rw [hr0 h0] at hd
        simp at hd
      have hz := h.zr_pos hP hr
      set mv := ⟪s.eta + (s.zr / ⟪s.delta, L.H s.delta⟫) • s.delta, L.g⟫ + 1 / 2 * ⟪s.eta + (s.zr / ⟪s.delta, L.H s.delta⟫) • s.delta, (0 : E)⟫ with hmv'
      have hinv := h.step hH hP hM hd hz mv
      simp only [] at hinv
      split at hres
      · rename_i hex
        simp only [Option.some.injEq, Prod.mk.injEq] at hres
        obtain ⟨rfl, rfl, rfl, rfl⟩ := hres
        right
        rcases hex with hex | hex
        · exfalso
          rw [hmv, hmv', inner_zero_right, mul_zero, add_zero, inner_add_left, real_inner_smul_left, h.delta_g hH] at hex
          have : 0 < s.zr / ⟪s.delta, L.H s.delta⟫ * s.zr := by positivity
          linarith
        · exact hex
      · split at hres
        · rename_i hconv
          simp only [Option.some.injEq, Prod.mk.injEq] at hres
          obtain ⟨rfl, rfl, rfl, rfl⟩ := hres
          left
          have e := hinv.r_eq
          have e' : s.r + (s.zr / ⟪s.delta, L.H s.delta⟫) • L.H s.delta = L.g + L.H (s.eta + (s.zr / ⟪s.delta, L.H s.delta⟫) • s.delta) := e
          rw [← e']
          exact hconv.2
        · rw [if_neg hz.ne'] at hres
          refine ih (j + 1) _ _ hinv ?_ ?_ ?_ eta delta i st hres
          · intro hr0'
            have hr0'' : s.r + (s.zr / ⟪s.delta, L.H s.delta⟫) • L.H s.delta = 0 := hr0'
            simp only [cgDir, cgMove, hr0'']
            simp
          · show mv = ⟪s.eta + (s.zr / ⟪s.delta, L.H s.delta⟫) • s.delta, L.g⟫
            rw [hmv', inner_zero_right, mul_zero, add_zero]
          · right
            have hdim' := hdim.resolve_left hr
            have hnot : s.delta ∉ K := by
              intro hmem
              have := h.conj _ hmem
              rw [real_inner_comm] at this
              linarith
            have hlt : K < K ⊔ Submodule.span ℝ {s.delta} := by
              refine lt_of_le_of_ne le_sup_left fun he => hnot ?_
              rw [he]
              exact (le_sup_right : _ ≤ K ⊔ Submodule.span ℝ {s.delta}) (Submodule.mem_span_singleton_self _)
            have := Submodule.finrank_lt_finrank_of_lt hlt
            omega

/-- **C121 (directions).** For every symmetric Hessian (also an indefinite one) and every nonzero gradient the Newton solver returns a direction, no NaN: either the preconditioned steepest
descent direction, or a conjugate gradient iterate that is orthogonal to its residual and whose slope is at least as steep as that of the first step. -/
theorem C121_direction (hH : IsSym L.H) (hP : IsSPD L.P) (hM : Inverse L.P M) (hg : L.g ≠ 0) (eps : ℝ) (maxInner : ℕ) :
    ∃ d, newtonDir L eps maxInner = some d ∧ (d = -(L.P L.g) ∨
      (⟪d, L.g⟫ ≤ -(⟪L.P L.g, L.g⟫ ^ 2 / ⟪L.P L.g, L.H (L.P L.g)⟫) ∧ ⟪d, L.g⟫ = -⟪d, L.H d⟫)) := by
  obtain ⟨eta, delta, i, st, e1, -, e3, e4⟩ := tcgLS_shape hH hP hM (eps := eps) maxInner 0 ⊥ L.start (start_inv L M hM) (fun h0 => absurd h0 hg) (fun _ => rfl) (by simp)
  unfold newtonDir
  rw [e1]
  simp only [Option.map_some, Option.some.injEq, exists_eq_left']
  by_cases hi : i = 0
  · rw [if_pos hi]; exact Or.inl (e3 hi)
  · rw [if_neg hi]
    right
    obtain ⟨h1, h2⟩ := e4 hi
    refine ⟨h1, ?_⟩
    rw [inner_add_left] at h2
    rw [real_inner_comm L.g eta, real_inner_comm (L.H eta) eta]
    linarith

/-- **C121 (inexact Newton steps).** With `Min_Inner_Iter >= 1`, a positive definite Hessian and a cap that is at least the dimension, the direction satisfies the residual test of the
truncated conjugate gradient method, unless the slope of the first step is within the machine precision. -/
theorem C121_newton_step [FiniteDimensional ℝ E] (hH : IsSym L.H) (hP : IsSPD L.P) (hM : Inverse L.P M) (hg : L.g ≠ 0) (hpos : ∀ v, v ≠ 0 → 0 < ⟪v, L.H v⟫) (hk : 0 ≤ L.kappa) (hmin : 1 ≤ L.minInner)
    {eps : ℝ} (heps : eps < ⟪L.P L.g, L.g⟫ ^ 2 / ⟪L.P L.g, L.H (L.P L.g)⟫) {maxInner : ℕ} (hcap : 1 ≤ maxInner) (hdim : finrank ℝ E ≤ maxInner) :
    ∃ d, newtonDir L eps maxInner = some d ∧ ‖L.g + L.H d‖ ≤ L.kappa * ‖L.g‖ ∧ ‖L.g + L.H d‖ ≤ ‖L.g‖ ^ (1 + L.theta) ∧ ⟪d, L.g⟫ = -⟪d, L.H d⟫ ∧
      ⟪d, L.g⟫ ≤ -(⟪L.P L.g, L.g⟫ ^ 2 / ⟪L.P L.g, L.H (L.P L.g)⟫) := by
  have htol : 0 ≤ L.tol := by
    unfold Local.tol
    simp only []
    apply mul_nonneg (norm_nonneg _)
    split
    · exact Real.rpow_nonneg (norm_nonneg _) _
    · exact hk
  have hgn : 0 < ‖L.g‖ := norm_pos_iff.mpr hg
  obtain ⟨eta, delta, i, st, e1, -, e3, e4⟩ := tcgLS_shape hH hP hM (eps := eps) maxInner 0 ⊥ L.start (start_inv L M hM) (fun h0 => absurd h0 hg) (fun _ => rfl) (by simp)
  have hres := tcgLS_residual hH hP hM hpos htol (eps := eps) maxInner 0 ⊥ L.start (start_inv L M hM) (fun h0 => absurd h0 hg) (by simp [Local.start]) (Or.inr (by simpa using hdim))
    eta delta i st e1
  have hi : i ≠ 0 := by
    obtain ⟨m, rfl⟩ : ∃ m, maxInner = m + 1 := ⟨maxInner - 1, by omega⟩
    intro hi
    have e1' := e1
    simp only [tcgLS] at e1'
    have hPg : L.P L.g ≠ 0 := by
      intro h0
      have := hP.2 _ hg
      rw [h0, inner_zero_left] at this
      exact lt_irrefl _ this
    have hD : ⟪L.start.delta, L.H L.start.delta⟫ = ⟪L.P L.g, L.H (L.P L.g)⟫ := by simp [Local.start]
    have hz : L.start.zr = ⟪L.P L.g, L.g⟫ := rfl
    have hDp : 0 < ⟪L.P L.g, L.H (L.P L.g)⟫ := hpos _ hPg
    have hzp : 0 < ⟪L.P L.g, L.g⟫ := hP.2 _ hg
    have hs : ⟪L.start.eta + (L.start.zr / ⟪L.start.delta, L.H L.start.delta⟫) • L.start.delta, L.g⟫ = -(⟪L.P L.g, L.g⟫ ^ 2 / ⟪L.P L.g, L.H (L.P L.g)⟫) := by
      rw [hD, hz]
      simp only [Local.start, zero_add, real_inner_smul_left, inner_neg_left]
      ring
    have hq : 0 < ⟪L.P L.g, L.g⟫ ^ 2 / ⟪L.P L.g, L.H (L.P L.g)⟫ := by positivity
    rw [hs, hD, if_neg (not_le.mpr hDp), if_neg, if_neg (by omega), if_neg (by rw [hz]; exact hzp.ne')] at e1'
    · have hinv := (start_inv L M hM).step hH hP hM (by rw [hD]; exact hDp) (by rw [hz]; exact hzp)
        (-(⟪L.P L.g, L.g⟫ ^ 2 / ⟪L.P L.g, L.H (L.P L.g)⟫) + 1 / 2 * ⟪L.start.eta + (L.start.zr / ⟪L.P L.g, L.H (L.P L.g)⟫) • L.start.delta, (0 : E)⟫)
      simp only [hD] at hinv
      obtain ⟨eta', delta', i', st', f1, f2, -, -⟩ := tcgLS_shape hH hP hM (eps := eps) m 1 _ _ hinv (by
            intro hr0'
            have hr0'' : L.start.r + (L.start.zr / ⟪L.P L.g, L.H (L.P L.g)⟫) • L.H L.start.delta = 0 := hr0'
            simp only [cgDir, cgMove, hr0'']
            simp) (fun hj => absurd hj one_ne_zero) (fun _ => by rw [← hD]; exact hs.le)
      rw [e1'] at f1
      simp only [Option.some.injEq, Prod.mk.injEq] at f1
      omega
    · push Not
      rw [inner_zero_right, mul_zero, add_zero]
      refine ⟨?_, by linarith⟩
      show _ < (0 : ℝ)
      linarith
  obtain ⟨h1, h2⟩ := e4 hi
  unfold firstDec at h1
  have hr := hres.resolve_right (by linarith)
  have htk : L.tol ≤ L.kappa * ‖L.g‖ ∧ L.tol ≤ ‖L.g‖ ^ (1 + L.theta) := by
    unfold Local.tol
    simp only []
    rw [Real.rpow_add hgn, Real.rpow_one]
    split
    · rename_i hlt
      exact ⟨by rw [mul_comm]; exact mul_le_mul_of_nonneg_right hlt.le hgn.le, le_rfl⟩
    · rename_i hlt
      push Not at hlt
      exact ⟨by rw [mul_comm], mul_le_mul_of_nonneg_left hlt hgn.le⟩
  refine ⟨eta, by unfold newtonDir; rw [e1]; simp [hi], hr.trans htk.1, hr.trans htk.2, ?_, h1⟩
  rw [inner_add_left] at h2
  rw [real_inner_comm L.g eta, real_inner_comm (L.H eta) eta]
  linarith

end inner

/-! ## Runs -/

section runs
open Verif.Solver

variable {X E : Type} [NormedAddCommGroup E] [InnerProductSpace ℝ E]

/-- Hypotheses on Hessian and preconditioner at a point: the Hessian is symmetric with `mu <= H <= b`, the preconditioner symmetric positive definite and invertible with `p1 <= P` and `|P v| <= p2 |v|`. -/
structure NewtonAt (H P M : E →ₗ[ℝ] E) (mu b p1 p2 : ℝ) : Prop where
  sym : IsSym H
  spd : IsSPD P
  inv : Inverse P M
  convex : ∀ v, mu * ‖v‖ ^ 2 ≤ ⟪v, H v⟫
  bound : ∀ v, ⟪v, H v⟫ ≤ b * ‖v‖ ^ 2
  pre : ∀ v, p1 * ‖v‖ ^ 2 ≤ ⟪P v, v⟫
  preB : ∀ v, ‖P v‖ ≤ p2 * ‖v‖

/-- How steep the directions are at least, and how long at most. -/
noncomputable def newtonLo (b p1 p2 : ℝ) : ℝ := min p1 (p1 ^ 2 / (b * p2 ^ 2))
noncomputable def newtonHi (mu p2 : ℝ) : ℝ := max p2 (1 / mu)

theorem NewtonAt.first {H P M : E →ₗ[ℝ] E} {mu b p1 p2 : ℝ} (h : NewtonAt H P M mu b p1 p2) (hmu : 0 < mu) (hb : 0 < b) (hp1 : 0 < p1) (hp2 : 0 < p2) {g : E} (hg : g ≠ 0) :
    p1 ^ 2 / (b * p2 ^ 2) * ‖g‖ ^ 2 ≤ ⟪P g, g⟫ ^ 2 / ⟪P g, H (P g)⟫ := by
  have hgn : 0 < ‖g‖ := norm_pos_iff.mpr hg
  have h1 := h.pre g
  have h2 := h.preB g
  have h3 := h.bound (P g)
  have hPg : 0 < ‖P g‖ := by
    rw [norm_pos_iff]
    intro h0
    have := h.spd.2 _ hg
    rw [h0, inner_zero_left] at this
    exact lt_irrefl _ this
  have hD : 0 < ⟪P g, H (P g)⟫ := lt_of_lt_of_le (by positivity) (h.convex (P g))
  rw [le_div_iff₀ hD]
  have h4 : ‖P g‖ ^ 2 ≤ (p2 * ‖g‖) ^ 2 := pow_le_pow_left₀ (norm_nonneg _) h2 2
  have h5 : (p1 * ‖g‖ ^ 2) ^ 2 ≤ ⟪P g, g⟫ ^ 2 := pow_le_pow_left₀ (by positivity) h1 2
  refine le_trans ?_ h5
  calc p1 ^ 2 / (b * p2 ^ 2) * ‖g‖ ^ 2 * ⟪P g, H (P g)⟫ ≤ p1 ^ 2 / (b * p2 ^ 2) * ‖g‖ ^ 2 * (b * (p2 * ‖g‖) ^ 2) := by
        refine mul_le_mul_of_nonneg_left (h3.trans ?_) (by positivity)
        exact mul_le_mul_of_nonneg_left h4 hb.le
    _ = (p1 * ‖g‖ ^ 2) ^ 2 := by field_simp

/-- A vector whose slope is the negative of its curvature is not longer than `|g| / mu`. -/
theorem newton_length {H : E →ₗ[ℝ] E} {mu : ℝ} (hmu : 0 < mu) (hc : ∀ v, mu * ‖v‖ ^ 2 ≤ ⟪v, H v⟫) {d g : E} (h : ⟪d, g⟫ = -⟪d, H d⟫) : ‖d‖ ≤ ‖g‖ / mu := by
  have h1 := hc d
  have h2 : -⟪d, g⟫ ≤ ‖d‖ * ‖g‖ := by
    have := abs_real_inner_le_norm d g
    rw [abs_le] at this
    linarith [this.1]
  rcases (norm_nonneg d).eq_or_lt with h0 | h0
  · rw [← h0]; positivity
  · rw [le_div_iff₀ hmu]
    have h3 : ‖d‖ * (‖d‖ * mu) ≤ ‖d‖ * ‖g‖ := by nlinarith
    exact le_of_mul_le_mul_left h3 h0

/-- The directions are gradient related. -/
theorem newton_related {G : Geo X E} {H P : X → E →ₗ[ℝ] E} {M : E →ₗ[ℝ] E} {c : NCfg} {nan : E} {mu b p1 p2 : ℝ} (hmu : 0 < mu) (hb : 0 < b) (hp1 : 0 < p1) (hp2 : 0 < p2)
    {x : X} (h : NewtonAt (H x) (P x) M mu b p1 p2) (hg : G.grad x ≠ 0) (t : ℝ) (p : Past X) :
    ⟪G.grad x, newtonDirection G H P c nan ((x, t) :: p)⟫ ≤ -newtonLo b p1 p2 * ‖G.grad x‖ ^ 2 ∧ ‖newtonDirection G H P c nan ((x, t) :: p)‖ ≤ newtonHi mu p2 * ‖G.grad x‖ := by
  obtain ⟨d, e, hd⟩ := C121_direction (L := newtonLocal G H P c x) (M := M) h.sym h.spd h.inv hg c.eps c.maxInner
  have ed : newtonDirection G H P c nan ((x, t) :: p) = d := by
    simp only [newtonDirection, e, Option.getD_some]
  rw [ed, real_inner_comm]
  rcases hd with hd | ⟨h1, h2⟩
  · have hd' : d = -(P x (G.grad x)) := hd
    rw [hd', inner_neg_left, norm_neg]
    refine ⟨?_, ?_⟩
    · have h1 := h.pre (G.grad x)
      have h2 : newtonLo b p1 p2 * ‖G.grad x‖ ^ 2 ≤ p1 * ‖G.grad x‖ ^ 2 := mul_le_mul_of_nonneg_right (min_le_left _ _) (by positivity)
      linarith
    · exact (h.preB _).trans (mul_le_mul_of_nonneg_right (le_max_left _ _) (norm_nonneg _))
  · refine ⟨?_, ?_⟩
    · have h3 := h.first hmu hb hp1 hp2 hg
      have h4 : newtonLo b p1 p2 * ‖G.grad x‖ ^ 2 ≤ p1 ^ 2 / (b * p2 ^ 2) * ‖G.grad x‖ ^ 2 := mul_le_mul_of_nonneg_right (min_le_right _ _) (by positivity)
      have h5 : ⟪d, G.grad x⟫ ≤ -(⟪P x (G.grad x), G.grad x⟫ ^ 2 / ⟪P x (G.grad x), H x (P x (G.grad x))⟫) := h1
      linarith
    · have h3 := newton_length hmu h.convex (d := d) (g := G.grad x) h2
      refine h3.trans ?_
      rw [div_eq_inv_mul, ← one_div]
      exact mul_le_mul_of_nonneg_right (le_max_right _ _) (norm_nonneg _)

/-- Hypotheses of C121 for runs from `x0`: the objective is bounded below with a quadratic upper model; on the level set of `x0` the Hessian is bounded and uniformly positive definite. -/
structure NewtonLSSetting (G : Geo X E) (H P M : X → E →ₗ[ℝ] E) (c : NCfg) (nan : E) (C : LSCfg) (O : Oracle X E) (x0 : X) (fmin L mu b p1 p2 thr : ℝ) : Prop where
  below : ∀ x, fmin ≤ G.f x
  upper : QuadUpper G L
  hess : ∀ x, G.f x ≤ G.f x0 → NewtonAt (H x) (P x) (M x) mu b p1 p2
  dir : O.dir = newtonDirection G H P c nan
  mono : C.run.numPre ≤ 1
  Lpos : 0 < L
  mupos : 0 < mu
  bpos : 0 < b
  p1pos : 0 < p1
  p2pos : 0 < p2
  kind : C.kind = .armijo
  alpha : 0 < C.ls.alpha
  alpha1 : C.ls.alpha < 1
  r1 : 0 < C.ls.r1
  r11 : C.ls.r1 < 1
  r2 : C.ls.r2 < 1
  minPos : 0 < C.ls.minStep
  minSmall : C.ls.minStep ≤ C.ls.r1 * safeStep C.ls L (newtonLo b p1 p2) (newtonHi mu p2)
  nocall : O.callback = none
  thresh : Threshold C ‖G.grad x0‖ thr
  thrpos : 0 < thr
  acc : C.accuracy * (‖G.grad x0‖ + C.tol) ≤ thr
  tolpos : 0 < C.tol
  min0 : C.run.minIter = 0
  gap : C.run.record = true → 0 < C.run.outputGap

section
variable {G : Geo X E} {H P M : X → E →ₗ[ℝ] E} {c : NCfg} {nan : E} {C : LSCfg} {O : Oracle X E} {x0 : X} {fmin L mu b p1 p2 thr : ℝ}

theorem NewtonLSSetting.lo_pos (S : NewtonLSSetting G H P M c nan C O x0 fmin L mu b p1 p2 thr) : 0 < newtonLo b p1 p2 := by
  have h1 := S.p1pos; have h2 := S.p2pos; have h3 := S.bpos
  exact lt_min h1 (by positivity)

theorem NewtonLSSetting.hi_pos (S : NewtonLSSetting G H P M c nan C O x0 fmin L mu b p1 p2 thr) : 0 < newtonHi mu p2 := lt_max_of_lt_left S.p2pos

theorem NewtonLSSetting.step (S : NewtonLSSetting G H P M c nan C O x0 fmin L mu b p1 p2 thr) {init0 eps : ℝ} (h0 : 0 < init0) (hrule : ∀ p, O.init p = quadIntMod G.land O.dir init0 eps p) :
    StepSetting G.land C O (fun _ d => ‖d‖) (fun p => ∀ x t q, p = (x, t) :: q → G.f x ≤ G.f x0) x0 fmin L (newtonLo b p1 p2) (newtonHi mu p2) thr
      (1 + √(2 * L * (G.f x0 - fmin))) init0 (quadIntMod G.land O.dir init0 eps) where
  below := S.below
  upper := land_upper S.upper
  dirs := by
    intro x t past h hg
    have hgn : G.grad x ≠ 0 := by
      intro h0
      have hg' : thr ≤ ‖G.grad x‖ := hg
      rw [h0, norm_zero] at hg'
      exact absurd S.thrpos (not_lt.mpr hg')
    obtain ⟨h1, h2⟩ := newton_related (c := c) (nan := nan) S.mupos S.bpos S.p1pos S.p2pos (S.hess x (h x t past rfl)) hgn t past
    rw [S.dir]
    exact ⟨h1, h2, norm_nonneg _⟩
  good0 := by
    intro x t q e
    simp only [List.cons.injEq, Prod.mk.injEq] at e
    rw [e.1.1]
  goodS := by
    intro x u past t h hg ht _ hdec x' t' q e
    simp only [List.cons.injEq, Prod.mk.injEq] at e
    rw [← e.1.1]
    have hgn : G.grad x ≠ 0 := by
      intro h0
      have hg' : thr ≤ ‖G.grad x‖ := hg
      rw [h0, norm_zero] at hg'
      exact absurd S.thrpos (not_lt.mpr hg')
    have hx := h x u past rfl
    obtain ⟨h1, -⟩ := newton_related (c := c) (nan := nan) S.mupos S.bpos S.p1pos S.p2pos (S.hess x hx) hgn u past
    rw [S.dir] at hdec ⊢
    refine le_trans hdec ?_
    have h2 : G.land.slope x (newtonDirection G H P c nan ((x, u) :: past)) ≤ 0 := by
      refine le_trans h1 ?_
      have := S.lo_pos
      have : 0 ≤ newtonLo b p1 p2 * ‖G.grad x‖ ^ 2 := by positivity
      linarith
    have h3 : C.ls.alpha * t * G.land.slope x (newtonDirection G H P c nan ((x, u) :: past)) ≤ 0 := mul_nonpos_of_nonneg_of_nonpos (mul_nonneg S.alpha.le ht.le) h2
    have h4 : G.land.f x ≤ G.f x0 := hx
    linarith
  rule := hrule
  mono := S.mono
  init0 := h0
  bound := grad_bound S.below S.upper S.Lpos x0
  Gpos := by positivity
  Lpos := S.Lpos
  c1pos := S.lo_pos
  c2pos := S.hi_pos
  kind := S.kind
  alpha := S.alpha
  alpha1 := S.alpha1
  r1 := S.r1
  r11 := S.r11
  r2 := S.r2
  minPos := S.minPos
  minSmall := S.minSmall
  nocall := S.nocall
  thresh := S.thresh
  thrpos := S.thrpos
  acc := S.acc
  tolpos := S.tolpos
  g0 := norm_nonneg _
  min0 := S.min0
  gap := S.gap

/-- **C121 (global convergence).** A run of `RNewton` with the Armijo search, comparison with the last value and the default initial steps, on an objective that is bounded below with a quadratic upper
model and whose Hessian is bounded and uniformly positive definite on the level set of the start, ends by its gradient test or the time limit after a bounded number of iterations; every search succeeded. -/
theorem C121_newton_converges (S : NewtonLSSetting G H P M c nan C O x0 fmin L mu b p1 p2 thr) {init0 eps : ℝ} (h0 : 0 < init0) (hrule : ∀ p, O.init p = quadIntMod G.land O.dir init0 eps p)
    {lo : ℝ} (hlo : lo = stepFloor C.ls init0 (1 + √(2 * L * (G.f x0 - fmin))) L (newtonLo b p1 p2) (newtonHi mu p2))
    (hN : G.f x0 - fmin < C.run.maxIter * gain C.ls L (newtonLo b p1 p2) (newtonHi mu p2) lo thr) :
    ∃ s, lsRun G.land C O x0 (C.run.maxIter + 1) = .finished s ∧ s.rs.ok = true ∧ s.rs.f1 = G.f s.x ∧
      s.rs.iter * gain C.ls L (newtonLo b p1 p2) (newtonHi mu p2) lo thr ≤ G.f x0 - G.f s.x ∧ (O.timeUp s.rs.iter = true ∨ ‖G.grad s.x‖ < thr) := by
  subst hlo
  obtain ⟨s, e1, e2, e3, e4, e5, -⟩ := C113_default_steps (S.step h0 hrule) hN
  exact ⟨s, e1, e2, e3, e4, e5⟩

end

/-! ### Rate -/

/-- A neighbourhood of a nondegenerate minimiser in which Newton steps are good: bounds on Hessian and preconditioner, Taylor estimates for steps not longer than `|g| / mu`, closed under decreasing steps;
`fit`, `fit'`: small enough for the condition of Armijo at unit steps and for the rule that predicts the initial step. -/
structure NewtonBasin (G : Geo X E) (H P M : X → E →ₗ[ℝ] E) (B : X → Prop) (alpha mu b p1 p2 gam beta rho : ℝ) : Prop where
  hess : ∀ x, B x → NewtonAt (H x) (P x) (M x) mu b p1 p2
  small : ∀ x, B x → ‖G.grad x‖ ≤ rho
  taylor : ∀ x, B x → ∀ v, ‖v‖ ≤ ‖G.grad x‖ / mu → |G.f (G.retr x v) - G.f x - (⟪v, G.grad x⟫ + 1 / 2 * ⟪v, H x v⟫)| ≤ gam * ‖v‖ ^ 3
  grad : ∀ x, B x → ∀ v, ‖v‖ ≤ ‖G.grad x‖ / mu → ‖G.grad (G.retr x v)‖ ≤ ‖G.grad x + H x v‖ + beta * ‖v‖ ^ 2
  stay : ∀ x, B x → ∀ v, ‖v‖ ≤ ‖G.grad x‖ / mu → G.f (G.retr x v) < G.f x → B (G.retr x v)
  mupos : 0 < mu
  bpos : 0 < b
  p1pos : 0 < p1
  p2pos : 0 < p2
  gam0 : 0 ≤ gam
  beta0 : 0 ≤ beta
  fit : gam * rho ≤ (1 / 2 - alpha) * mu ^ 2
  fit' : 202 * gam * rho ≤ mu ^ 2

section
variable [FiniteDimensional ℝ E] {G : Geo X E} {H P M : X → E →ₗ[ℝ] E} {B : X → Prop} {c : NCfg} {nan : E} {alpha mu b p1 p2 gam beta rho thr : ℝ}

/-- One Newton step in the basin. -/
theorem NewtonBasin.unit (S : NewtonBasin G H P M B alpha mu b p1 p2 gam beta rho) (hmin : 1 ≤ c.minInner) (hk : 0 ≤ c.kappa) (hcap : 1 ≤ c.maxInner) (hdim : finrank ℝ E ≤ c.maxInner)
    (hthr : 0 < thr) (heps : c.eps < p1 ^ 2 / (b * p2 ^ 2) * thr ^ 2) {x : X} (hB : B x) (hg : thr ≤ ‖G.grad x‖) (t : ℝ) (p : Past X) :
    ∃ d, newtonDirection G H P c nan ((x, t) :: p) = d ∧ ⟪G.grad x, d⟫ < 0 ∧ G.f (G.retr x d) ≤ G.f x + alpha * ⟪G.grad x, d⟫ ∧ G.f (G.retr x d) < G.f x ∧ B (G.retr x d) ∧
      ‖G.grad (G.retr x d)‖ ≤ ‖G.grad x‖ ^ (1 + c.theta) + beta / mu ^ 2 * ‖G.grad x‖ ^ 2 ∧ ‖G.grad (G.retr x d)‖ ≤ c.kappa * ‖G.grad x‖ + beta / mu ^ 2 * ‖G.grad x‖ ^ 2 ∧
      G.f (G.retr x d) - G.f x ≤ 100 / 202 * ⟪G.grad x, d⟫ ∧ 50 * ⟪G.grad x, d⟫ ≤ G.f (G.retr x d) - G.f x := by
  have hmu := S.mupos
  have hgp : 0 < ‖G.grad x‖ := lt_of_lt_of_le hthr hg
  have hg0 : G.grad x ≠ 0 := norm_pos_iff.mp hgp
  have hA := S.hess x hB
  have hfirst := hA.first hmu S.bpos S.p1pos S.p2pos hg0
  have heps' : c.eps < ⟪P x (G.grad x), G.grad x⟫ ^ 2 / ⟪P x (G.grad x), H x (P x (G.grad x))⟫ := by
    refine lt_of_lt_of_le heps (le_trans ?_ hfirst)
    have h1 := S.bpos; have h2 := S.p2pos
    exact mul_le_mul_of_nonneg_left (pow_le_pow_left₀ hthr.le hg 2) (by positivity)
  obtain ⟨d, e, r1, r2, r3, r4⟩ := C121_newton_step (L := newtonLocal G H P c x) (M := M x) hA.sym hA.spd hA.inv hg0
    (fun v hv => lt_of_lt_of_le (mul_pos hmu (pow_pos (norm_pos_iff.mpr hv) 2)) (hA.convex v)) hk hmin heps' hcap hdim
  have r1' : ‖G.grad x + H x d‖ ≤ c.kappa * ‖G.grad x‖ := r1
  have r2' : ‖G.grad x + H x d‖ ≤ ‖G.grad x‖ ^ (1 + c.theta) := r2
  have r3' : ⟪d, G.grad x⟫ = -⟪d, H x d⟫ := r3
  have r4' : ⟪d, G.grad x⟫ ≤ -(⟪P x (G.grad x), G.grad x⟫ ^ 2 / ⟪P x (G.grad x), H x (P x (G.grad x))⟫) := r4
  have hlen := newton_length hmu hA.convex r3'
  have hpos : 0 < p1 ^ 2 / (b * p2 ^ 2) * ‖G.grad x‖ ^ 2 := by
    have h1 := S.bpos; have h2 := S.p2pos; have h3 := S.p1pos
    positivity
  have hneg : ⟪d, G.grad x⟫ < 0 := by linarith
  have hdH := hA.convex d
  have hty := abs_le.mp (S.taylor x hB d hlen)
  have hrho : ‖d‖ * mu ≤ rho := by
    rw [le_div_iff₀ hmu] at hlen
    exact hlen.trans (S.small x hB)
  -- the remainder is small compared with the slope
  have hrem : ∀ q, gam * rho ≤ q * mu ^ 2 → gam * ‖d‖ ^ 3 ≤ q * ⟪d, H x d⟫ := by
    intro q hq
    have h1 : gam * (‖d‖ * mu) ≤ q * mu ^ 2 := (mul_le_mul_of_nonneg_left hrho S.gam0).trans hq
    have h2 : gam * ‖d‖ ≤ q * mu := by
      have : (gam * ‖d‖) * mu ≤ (q * mu) * mu := by nlinarith
      exact le_of_mul_le_mul_right this hmu
    have hq0 : 0 ≤ q := by
      have : 0 ≤ q * mu := le_trans (mul_nonneg S.gam0 (norm_nonneg _)) h2
      exact nonneg_of_mul_nonneg_left this hmu
    calc gam * ‖d‖ ^ 3 = gam * ‖d‖ * ‖d‖ ^ 2 := by ring
      _ ≤ q * mu * ‖d‖ ^ 2 := mul_le_mul_of_nonneg_right h2 (by positivity)
      _ = q * (mu * ‖d‖ ^ 2) := by ring
      _ ≤ q * ⟪d, H x d⟫ := mul_le_mul_of_nonneg_left hdH hq0
  have hr1 := hrem (1 / 2 - alpha) S.fit
  have hr2 := hrem (1 / 202) (by have := S.fit'; linarith)
  have hdec : G.f (G.retr x d) < G.f x := by linarith [hty.2]
  refine ⟨d, by simp only [newtonDirection, e, Option.getD_some], by rw [real_inner_comm]; exact hneg, ?_, hdec, S.stay x hB d hlen hdec, ?_, ?_, ?_, ?_⟩
  · have h1 := hty.2
    rw [r3'] at h1
    rw [real_inner_comm d (G.grad x), r3']
    linarith
  · have h1 := S.grad x hB d hlen
    have h2 : beta * ‖d‖ ^ 2 ≤ beta / mu ^ 2 * ‖G.grad x‖ ^ 2 := by
      have := mul_le_mul_of_nonneg_left (pow_le_pow_left₀ (norm_nonneg _) hlen 2) S.beta0
      calc _ ≤ _ := this
        _ = _ := by ring
    linarith
  · have h1 := S.grad x hB d hlen
    have h2 : beta * ‖d‖ ^ 2 ≤ beta / mu ^ 2 * ‖G.grad x‖ ^ 2 := by
      have := mul_le_mul_of_nonneg_left (pow_le_pow_left₀ (norm_nonneg _) hlen 2) S.beta0
      calc _ ≤ _ := this
        _ = _ := by ring
    linarith
  · rw [real_inner_comm d (G.grad x)]; linarith [hty.2]
  · rw [real_inner_comm d (G.grad x)]; linarith [hty.1]

/-- **C121 (rate).** A run of `RNewton` with `Min_Inner_Iter >= 1`, started in the basin with the default first step one and the default rule for the later ones, only makes unit steps, and each satisfies the
superlinear estimate; it ends by the gradient test (or the time limit) within `k` iterations, where `(A rho) ^ ((1 + theta) ^ k) < A thr` with `A = (1 + beta / mu²) ^ (1 / theta)`. -/
theorem C121_newton_fast {C : LSCfg} {O : Oracle X E} {x0 : X} (S : NewtonBasin G H P M B C.ls.alpha mu b p1 p2 gam beta rho) (K : ArmijoCfg G.land C O x0 thr)
    (hmin : 1 ≤ c.minInner) (hk : 0 ≤ c.kappa) (hcap : 1 ≤ c.maxInner) (hdim : finrank ℝ E ≤ c.maxInner)
    (hthr : 0 < thr) (heps : c.eps < p1 ^ 2 / (b * p2 ^ 2) * thr ^ 2) (ht0 : 0 < c.theta) (ht1 : c.theta ≤ 1) (hrho1 : rho ≤ 1)
    (hdir : O.dir = newtonDirection G H P c nan) {eps : ℝ} (heps1 : eps ≤ 1) (hrule : ∀ p, O.init p = quadIntMod G.land O.dir 1 eps p) (hx0 : B x0) {k : ℕ}
    (hkk : (rateConst beta mu c.theta * rho) ^ ((1 + c.theta) ^ k) < rateConst beta mu c.theta * thr) (hroom : k ≤ C.run.maxIter) :
    ∃ s, lsRun G.land C O x0 (k + 1) = .finished s ∧ s.rs.ok = true ∧ (O.timeUp s.rs.iter = true ∨ ‖G.grad s.x‖ < thr) ∧ s.rs.iter ≤ k ∧
      (∀ q₀ x t q, s.past = q₀ ++ (x, t) :: q → q ≠ [] → t = 1) ∧
      (∀ q₀ x2 t x1 u q, s.past = q₀ ++ (x2, t) :: (x1, u) :: q →
        ‖G.grad x2‖ ≤ ‖G.grad x1‖ ^ (1 + c.theta) + beta / mu ^ 2 * ‖G.grad x1‖ ^ 2 ∧ ‖G.grad x2‖ ≤ c.kappa * ‖G.grad x1‖ + beta / mu ^ 2 * ‖G.grad x1‖ ^ 2) := by
  have hmu := S.mupos
  have hA : 0 < rateConst beta mu c.theta := Real.rpow_pos_of_pos (by have := S.beta0; positivity) _
  have hth : (0 : ℝ) ≤ 1 + c.theta := by linarith
  have hrho0 : 0 ≤ rho := (norm_nonneg _).trans (S.small x0 hx0)
  let Q : Past X → Prop := fun p => (∀ q₀ x t q, p = q₀ ++ (x, t) :: q → q ≠ [] → t = 1) ∧
      (∀ q₀ x2 t x1 u q, p = q₀ ++ (x2, t) :: (x1, u) :: q →
        ‖G.grad x2‖ ≤ ‖G.grad x1‖ ^ (1 + c.theta) + beta / mu ^ 2 * ‖G.grad x1‖ ^ 2 ∧ ‖G.grad x2‖ ≤ c.kappa * ‖G.grad x1‖ + beta / mu ^ 2 * ‖G.grad x1‖ ^ 2)
  let Inv : ℕ → Past X → Prop := fun m p => ∃ x t q, p = (x, t) :: q ∧ B x ∧ m ≤ k ∧
    rateConst beta mu c.theta * ‖G.grad x‖ ≤ (rateConst beta mu c.theta * rho) ^ ((1 + c.theta) ^ (k - m)) ∧ O.init p = 1 ∧ Q p
  obtain ⟨s, m', a1, a2, a3, ⟨x, t, q, -, -, -, -, -, a4⟩, a5⟩ := lsLoop_first K Inv
    (by
      rintro x t p ⟨x', t', q, e, -, -, h, -⟩
      simp only [List.cons.injEq, Prod.mk.injEq] at e
      rw [← e.1.1, Nat.sub_zero] at h
      exact lt_of_mul_lt_mul_left (lt_of_le_of_lt h hkk) hA.le)
    (by
      rintro m x t p ⟨x', t', q, e, hB, hmk, hr, hi, hQ⟩ hg
      simp only [List.cons.injEq, Prod.mk.injEq] at e
      obtain ⟨⟨rfl, rfl⟩, rfl⟩ := e
      have hg' : thr ≤ ‖G.grad x‖ := hg
      obtain ⟨d, ed, d1, d2, d3, d4, d5, d6, d7, d8⟩ := S.unit (c := c) (nan := nan) hmin hk hcap hdim hthr heps hB hg' t p
      rw [hi, hdir, ed]
      have emv : G.land.move x d 1 = G.retr x d := by simp [Geo.land]
      rw [emv]
      have hgp : 0 < ‖G.grad x‖ := lt_of_lt_of_le hthr hg'
      refine ⟨by rw [mul_one]; exact d2, ⟨G.retr x d, 1, (x, t) :: p, rfl, d4, by omega, ?_, ?_, ?_, ?_⟩⟩
      · have h1 := rate_step S.beta0 hmu ht0 ht1 hgp ((S.small x hB).trans hrho1) d5
        refine h1.trans ?_
        have h2 := Real.rpow_le_rpow (mul_nonneg hA.le hgp.le) hr hth
        refine h2.trans (le_of_eq ?_)
        rw [← Real.rpow_mul (mul_nonneg hA.le hrho0), ← pow_succ]
        congr 2
        omega
      · rw [hrule]
        refine quadIntMod_unit heps1 _ _ _ _ _ ?_ ?_ ?_
        · rw [hdir, ed]; exact d1
        · rw [hdir, ed]; exact d7
        · rw [hdir, ed]; exact d8
      · intro q₀ x2 t2 q e hq
        cases q₀ with
        | nil =>
          simp only [List.nil_append, List.cons.injEq, Prod.mk.injEq] at e
          exact e.1.2.symm
        | cons y q₀ =>
          simp only [List.cons_append, List.cons.injEq] at e
          exact hQ.1 q₀ x2 t2 q e.2 hq
      · intro q₀ x2 t2 x1 u q e
        cases q₀ with
        | nil =>
          simp only [List.nil_append, List.cons.injEq, Prod.mk.injEq] at e
          obtain ⟨⟨rfl, -⟩, ⟨rfl, -⟩, -⟩ := e
          exact ⟨d5, d6⟩
        | cons y q₀ =>
          simp only [List.cons_append, List.cons.injEq] at e
          exact hQ.2 q₀ x2 t2 x1 u q e.2)
    k (lsInit G.land C O x0) (init_FirstInv K)
    (by
      refine ⟨x0, 0, [], rfl, hx0, le_rfl, ?_, ?_, ?_, ?_⟩
      · rw [Nat.sub_self, pow_zero, Real.rpow_one]
        exact mul_le_mul_of_nonneg_left (S.small _ hx0) hA.le
      · rw [hrule]
        simp [lsInit, quadIntMod, ruleStep, initialStep, Ext.toReal]
      · intro q₀ x t q e hq
        exfalso
        have := congrArg List.length e
        simp [lsInit] at this
        have := List.length_pos_iff.mpr hq
        omega
      · intro q₀ x2 t x1 u q e
        exfalso
        have := congrArg List.length e
        simp [lsInit] at this
        omega)
    (by show 0 + k ≤ _; omega)
  have h0 : (lsInit G.land C O x0).rs.iter = 0 := rfl
  exact ⟨s, a1, a2.ok, a3, by omega, a4.1, a4.2⟩

end

/-! ### The default `Min_Inner_Iter = 0` -/

/-- **C121 (finding): one-dimensional problems.** With the default `Min_Inner_Iter = 0` the direction on a one-dimensional manifold is always the preconditioned steepest descent direction: the conjugate
gradient method is exact after one pass, is left in its first pass and its result is discarded. -/
theorem C121_dimension_one [FiniteDimensional ℝ E] (hE : finrank ℝ E = 1) {L : Local E} {M : E →ₗ[ℝ] E} (hH : IsSym L.H) (hP : IsSPD L.P) (hM : Inverse L.P M) (hg : L.g ≠ 0)
    (hk : 0 ≤ L.kappa) (hmin : L.minInner = 0) (eps : ℝ) (maxInner : ℕ) : newtonDir L eps maxInner = some (-(L.P L.g)) := by
  have htol : 0 ≤ L.tol := by
    unfold Local.tol
    simp only []
    apply mul_nonneg (norm_nonneg _)
    split
    · exact Real.rpow_nonneg (norm_nonneg _) _
    · exact hk
  unfold newtonDir
  cases maxInner with
  | zero => simp [tcgLS, Local.start]
  | succ n =>
    simp only [tcgLS]
    by_cases hd : ⟪L.start.delta, L.H L.start.delta⟫ ≤ 0
    · rw [if_pos hd]; simp [Local.start]
    · rw [if_neg hd]
      push Not at hd
      split
      · simp [Local.start]
      · have hz : 0 < L.start.zr := (start_inv L M hM).zr_pos hP hg
        have hinv := (start_inv L M hM).step hH hP hM hd hz 0
        simp only [] at hinv
        have hne : L.start.delta ≠ 0 := (start_inv L M hM).delta_ne hP hg
        have hr : L.start.r + (L.start.zr / ⟪L.start.delta, L.H L.start.delta⟫) • L.H L.start.delta = 0 := by
          have h1 := hinv.r_orth
          have hspan : (⊥ ⊔ Submodule.span ℝ {L.start.delta} : Submodule ℝ E) = ⊤ := by
            rw [bot_sup_eq]
            exact Submodule.eq_top_of_finrank_eq (by rw [finrank_span_singleton hne, hE])
          rw [hspan] at h1
          exact inner_self_eq_zero.mp (h1 _ trivial)
        rw [if_pos]
        · simp [Local.start]
        · refine ⟨by omega, ?_⟩
          show ‖L.start.r + (L.start.zr / ⟪L.start.delta, L.H L.start.delta⟫) • L.H L.start.delta‖ ≤ L.tol
          rw [hr, norm_zero]; exact htol

/-- `x² / 4` on the real line. -/
noncomputable def quarterGeo : Geo ℝ ℝ where
  f x := x ^ 2 / 4
  grad x := x / 2
  retr x e := x + e
  dretr _ _ v := v
  T _ _ := LinearIsometryEquiv.refl ℝ ℝ
  beta _ _ := 1
  P _ u := u

noncomputable def quarterH : ℝ → ℝ →ₗ[ℝ] ℝ := fun _ => (1 / 2 : ℝ) • LinearMap.id

/-- Default parameters of `RNewton` (RNewton.cpp:18-27) apart from `Min_Inner_Iter`. -/
noncomputable def defaultN (minInner : ℕ) : NCfg := ⟨1, 1 / 10, minInner, 1000, 1 / 2 ^ 52⟩

/-- Default parameters (Accuracy zero). -/
noncomputable def quarterOracle (minInner : ℕ) : Oracle ℝ ℝ :=
  { quadOracle 1 with
    dir := newtonDirection quarterGeo quarterH (fun _ => LinearMap.id) (defaultN minInner) 0
    init := quadIntMod quarterGeo.land (newtonDirection quarterGeo quarterH (fun _ => LinearMap.id) (defaultN minInner) 0) 1 (1 / 2 ^ 52) }

theorem quarter_init (n : ℕ) (p : Past ℝ) : (quarterOracle n).init p = quadIntMod quarterGeo.land (quarterOracle n).dir 1 (1 / 2 ^ 52) p := rfl

theorem quarter_dir {x : ℝ} (hx : x ≠ 0) (t : ℝ) (p : Past ℝ) : (quarterOracle 0).dir ((x, t) :: p) = -(x / 2) := by
  show (newtonDir (newtonLocal quarterGeo quarterH (fun _ => LinearMap.id) (defaultN 0) x) _ _).getD 0 = _
  rw [C121_dimension_one (M := LinearMap.id) (by simp) ?_ (id_spd ℝ) ⟨fun _ => rfl, fun _ => rfl⟩ ?_ ?_ rfl]
  · rfl
  · intro u v
    simp only [newtonLocal, quarterH, LinearMap.smul_apply, LinearMap.id_apply, real_inner_smul_left, real_inner_smul_right]
  · show x / 2 ≠ 0
    simpa using hx
  · show (0 : ℝ) ≤ 1 / 10
    norm_num

theorem quarter_cfg (minInner : ℕ) {x0 : ℝ} (hx : x0 ≠ 0) (n : ℕ) : ArmijoCfg quarterGeo.land (quadCfg 0 n) (quarterOracle minInner) x0 (1 / 10 ^ 6 * ‖x0 / 2‖) where
  kind := rfl
  nocall := rfl
  thresh := Or.inr ⟨rfl, by show 0 < ‖x0 / 2‖; simpa using hx, rfl⟩
  acc := by simp only [quadCfg, zero_mul]; positivity
  tolpos := by norm_num [quadCfg]
  g0 := norm_nonneg _
  min0 := rfl
  gap h := by simp [quadCfg] at h

/-- **C121 (finding): linear convergence.** On `f(x) = x²/4` with all parameters at their defaults (Accuracy zero) `RNewton` halves the iterate in every iteration, although the Newton step reaches the minimiser
at once: twenty iterations for the default tolerance, from every starting point. -/
theorem C121_default_is_linear {x0 : ℝ} (hx : x0 ≠ 0) : ∃ s, lsRun quarterGeo.land (quadCfg 0 20) (quarterOracle 0) x0 21 = .finished s ∧ s.rs.iter = 20 ∧ s.x = x0 / 2 ^ 20 := by
  have hpow : ∀ n : ℕ, x0 / 2 ^ n ≠ 0 := fun n => div_ne_zero hx (by positivity)
  have hax : 0 < |x0| := abs_pos.mpr hx
  let Inv : ℕ → Past ℝ → Prop := fun m p => m ≤ 20 ∧ ∃ t q, p = (x0 / 2 ^ (20 - m), t) :: q ∧ (quarterOracle 0).init p = 1
  have hnorm : ∀ n : ℕ, quarterGeo.land.gnorm (x0 / 2 ^ n) = ‖x0 / 2‖ * (1 / 2 ^ n) := by
    intro n
    show ‖x0 / 2 ^ n / 2‖ = _
    simp only [Real.norm_eq_abs, abs_div]
    rw [abs_of_pos (by positivity : (0 : ℝ) < 2 ^ n)]
    ring
  have hpos : 0 < ‖x0 / 2‖ := by simpa using hx
  obtain ⟨s, m', a1, a2, a3, ⟨a4, t, q, a6, -⟩, a5⟩ := lsLoop_first (quarter_cfg 0 hx 20) Inv
    (by
      rintro x t p ⟨-, t', q, e, -⟩
      simp only [List.cons.injEq, Prod.mk.injEq] at e
      rw [e.1.1, hnorm, mul_comm]
      exact mul_lt_mul_of_pos_right (by norm_num) hpos)
    (by
      rintro m x t p ⟨hm, t', q, e, hi⟩ hg
      simp only [List.cons.injEq, Prod.mk.injEq] at e
      obtain ⟨⟨rfl, rfl⟩, rfl⟩ := e
      rw [hi, quarter_dir (hpow _)]
      set y := x0 / 2 ^ (20 - (m + 1)) with hy
      have hy0 : y ≠ 0 := hpow _
      have hy2 : 0 < y ^ 2 := by positivity
      have emv : quarterGeo.land.move y (-(y / 2)) 1 = x0 / 2 ^ (20 - m) := by
        simp only [Geo.land, quarterGeo, one_smul]
        rw [hy, show 20 - m = (20 - (m + 1)) + 1 by omega, pow_succ]
        ring
      have emv' : quarterGeo.land.move y (-(y / 2)) 1 = y / 2 := by
        simp only [Geo.land, quarterGeo, one_smul]
        ring
      refine ⟨?_, by omega, 1, (y, t) :: p, by rw [emv], ?_⟩
      · rw [emv']
        simp only [Geo.land, quarterGeo, quadCfg, RCLike.inner_apply, conj_trivial]
        nlinarith
      · rw [quarter_init]
        have hd : (quarterOracle 0).dir ((y, t) :: p) = -(y / 2) := quarter_dir hy0 t p
        refine quadIntMod_unit (by norm_num) _ _ _ _ _ ?_ ?_ ?_
        · rw [hd]
          simp only [Geo.land, quarterGeo, RCLike.inner_apply, conj_trivial]
          nlinarith
        · rw [hd, emv']
          simp only [Geo.land, quarterGeo, RCLike.inner_apply, conj_trivial]
          nlinarith
        · rw [hd, emv']
          simp only [Geo.land, quarterGeo, RCLike.inner_apply, conj_trivial]
          nlinarith)
    20 (lsInit quarterGeo.land (quadCfg 0 20) (quarterOracle 0) x0) (init_FirstInv (quarter_cfg 0 hx 20))
    (by
      refine ⟨le_rfl, 0, [], by simp [lsInit], ?_⟩
      simp [lsInit, quarterOracle, quadIntMod, ruleStep, initialStep, Ext.toReal])
    (by show 0 + 20 ≤ 20; omega)
  have h0 : (lsInit quarterGeo.land (quadCfg 0 20) (quarterOracle 0) x0).rs.iter = 0 := rfl
  obtain ⟨t', q', hp⟩ := a2.past
  rw [a6] at hp
  simp only [List.cons.injEq, Prod.mk.injEq] at hp
  have hm0 : m' = 0 := by
    by_contra hm
    rcases a3 with h | h
    · simp [quarterOracle, quadOracle] at h
    · rw [← hp.1.1, hnorm, mul_comm] at h
      have h1 := lt_of_mul_lt_mul_right h hpos.le
      have h2 : (2 : ℝ) ^ (20 - m') ≤ 2 ^ 19 := pow_le_pow_right₀ (by norm_num) (by omega)
      have h3 : (1 : ℝ) / 2 ^ 19 ≤ 1 / 2 ^ (20 - m') := one_div_le_one_div_of_le (by positivity) h2
      norm_num at h1 h3
      linarith
  subst hm0
  exact ⟨s, a1, by omega, hp.1.1.symm⟩

/-- The hypotheses of C121 hold for the same objective, from every point with `|x| <= 1`, with `Min_Inner_Iter = 1`: one iteration. -/
theorem quarter_basin : NewtonBasin quarterGeo quarterH (fun _ => LinearMap.id) (fun _ => LinearMap.id) (fun x => |x| ≤ 1) (1 / 10000) (1 / 2) (1 / 2) 1 1 0 0 (1 / 2) where
  hess x _ :=
    { sym := fun u v => by simp only [quarterH, LinearMap.smul_apply, LinearMap.id_apply, real_inner_smul_left, real_inner_smul_right]
      spd := id_spd ℝ
      inv := ⟨fun _ => rfl, fun _ => rfl⟩
      convex := fun v => by simp only [quarterH, LinearMap.smul_apply, LinearMap.id_apply, real_inner_smul_right, real_inner_self_eq_norm_sq]; exact le_rfl
      bound := fun v => by simp only [quarterH, LinearMap.smul_apply, LinearMap.id_apply, real_inner_smul_right, real_inner_self_eq_norm_sq]; exact le_rfl
      pre := fun v => by simp only [LinearMap.id_apply, real_inner_self_eq_norm_sq, one_mul]; exact le_rfl
      preB := fun v => by simp }
  small x hx := by
    simp only [quarterGeo, Real.norm_eq_abs, abs_div]
    rw [abs_of_pos (by norm_num : (0 : ℝ) < 2)]
    linarith
  taylor x hx v hv := by
    simp only [quarterGeo, quarterH, LinearMap.smul_apply, LinearMap.id_apply, RCLike.inner_apply, conj_trivial, smul_eq_mul, zero_mul]
    apply le_of_eq
    rw [abs_eq_zero]
    ring
  grad x hx v hv := by
    simp only [quarterGeo, quarterH, LinearMap.smul_apply, LinearMap.id_apply, smul_eq_mul, zero_mul, add_zero]
    apply le_of_eq
    congr 1
    ring
  stay x hx v _ hf := by
    simp only [quarterGeo] at hf ⊢
    refine le_trans ?_ hx
    rw [← sq_le_sq]
    linarith
  mupos := by norm_num
  bpos := by norm_num
  p1pos := by norm_num
  p2pos := by norm_num
  gam0 := le_rfl
  beta0 := le_rfl
  fit := by norm_num
  fit' := by norm_num

/-- C121 applied: with `Min_Inner_Iter = 1` the same objective, from `1`, needs at most five iterations for the same tolerance. -/
example : ∃ s, lsRun quarterGeo.land (quadCfg 0 5) (quarterOracle 1) 1 6 = .finished s ∧ ‖s.x / 2‖ < 1 / 10 ^ 6 * ‖(1 : ℝ) / 2‖ ∧ s.rs.iter ≤ 5 := by
  have hA : rateConst 0 (1 / 2) 1 = 1 := by unfold rateConst; norm_num
  obtain ⟨s, h1, -, h2, h3, -⟩ := C121_newton_fast (c := defaultN 1) (nan := 0) (thr := 1 / 10 ^ 6 * ‖(1 : ℝ) / 2‖) (k := 5) (eps := 1 / 2 ^ 52) (C := quadCfg 0 5)
    quarter_basin (quarter_cfg 1 one_ne_zero 5) le_rfl (by norm_num [defaultN]) (by norm_num [defaultN]) (by simp [defaultN]) (by norm_num)
    (by simp only [defaultN]; norm_num) (by norm_num [defaultN]) (by norm_num [defaultN]) (by norm_num) rfl (by norm_num) (fun _ => rfl) (by norm_num)
    (by
      show (rateConst 0 (1 / 2) 1 * (1 / 2)) ^ (((1 : ℝ) + 1) ^ 5) < rateConst 0 (1 / 2) 1 * _
      rw [hA, show ((1 : ℝ) + 1) ^ 5 = ((32 : ℕ) : ℝ) by norm_num, Real.rpow_natCast]
      norm_num) le_rfl
  refine ⟨s, h1, ?_, h3⟩
  rcases h2 with h | h
  · simp [quarterOracle, quadOracle] at h
  · exact h

/-- The hypotheses of the global theorem hold for the same objective, from every other point than the minimiser. -/
theorem quarter_setting (minInner n : ℕ) {x0 : ℝ} (hx : x0 ≠ 0) :
    NewtonLSSetting quarterGeo quarterH (fun _ => LinearMap.id) (fun _ => LinearMap.id) (defaultN minInner) 0 (quadCfg 0 n) (quarterOracle minInner) x0 0 (1 / 2) (1 / 2) (1 / 2) 1 1 (1 / 10 ^ 6 * ‖x0 / 2‖) where
  below x := by simp only [quarterGeo]; positivity
  upper x e := by
    simp only [quarterGeo, RCLike.inner_apply, conj_trivial, Real.norm_eq_abs, sq_abs]
    apply le_of_eq
    ring
  hess x _ :=
    { sym := fun u v => by simp only [quarterH, LinearMap.smul_apply, LinearMap.id_apply, real_inner_smul_left, real_inner_smul_right]
      spd := id_spd ℝ
      inv := ⟨fun _ => rfl, fun _ => rfl⟩
      convex := fun v => by simp only [quarterH, LinearMap.smul_apply, LinearMap.id_apply, real_inner_smul_right, real_inner_self_eq_norm_sq]; exact le_rfl
      bound := fun v => by simp only [quarterH, LinearMap.smul_apply, LinearMap.id_apply, real_inner_smul_right, real_inner_self_eq_norm_sq]; exact le_rfl
      pre := fun v => by simp only [LinearMap.id_apply, real_inner_self_eq_norm_sq, one_mul]; exact le_rfl
      preB := fun v => by simp }
  dir := rfl
  mono := le_rfl
  Lpos := by norm_num
  mupos := by norm_num
  bpos := by norm_num
  p1pos := by norm_num
  p2pos := by norm_num
  kind := rfl
  alpha := by norm_num [quadCfg]
  alpha1 := by norm_num [quadCfg]
  r1 := by norm_num [quadCfg]
  r11 := by norm_num [quadCfg]
  r2 := by norm_num [quadCfg]
  minPos := by norm_num [quadCfg]
  minSmall := by norm_num [quadCfg, safeStep, newtonLo, newtonHi]
  nocall := rfl
  thresh := (quarter_cfg minInner hx n).thresh
  thrpos := by
    have : 0 < ‖x0 / 2‖ := by simpa using hx
    positivity
  acc := (quarter_cfg minInner hx n).acc
  tolpos := by norm_num [quadCfg]
  min0 := rfl
  gap h := by simp [quadCfg] at h

/-- C121 (global convergence) applied. -/
example (minInner : ℕ) {x0 : ℝ} (hx : x0 ≠ 0) : ∃ n s, lsRun quarterGeo.land (quadCfg 0 n) (quarterOracle minInner) x0 (n + 1) = .finished s ∧ ‖s.x / 2‖ < 1 / 10 ^ 6 * ‖x0 / 2‖ := by
  have S := quarter_setting minInner 0 hx
  have hg := gain_pos (S.step (eps := 1 / 2 ^ 52) one_pos (fun _ => rfl)).reach
  obtain ⟨n, hn⟩ := exists_nat_gt ((quarterGeo.f x0 - 0) / gain (quadCfg 0 0).ls (1 / 2) (newtonLo (1 / 2) 1 1) (newtonHi (1 / 2) 1)
    (stepFloor (quadCfg 0 0).ls 1 (1 + √(2 * (1 / 2) * (quarterGeo.f x0 - 0))) (1 / 2) (newtonLo (1 / 2) 1 1) (newtonHi (1 / 2) 1)) (1 / 10 ^ 6 * ‖x0 / 2‖))
  rw [div_lt_iff₀ hg] at hn
  obtain ⟨s, e, -, -, -, h⟩ := C121_newton_converges (quarter_setting minInner n hx) (eps := 1 / 2 ^ 52) one_pos (fun _ => rfl) rfl hn
  refine ⟨n, s, e, ?_⟩
  rcases h with h | h
  · simp [quarterOracle, quadOracle] at h
  · exact h

end runs

end Verif.TR
