import Verif.Solver.Direction
import Mathlib.Tactic.Linarith
import Mathlib.Tactic.Positivity
import Mathlib.Tactic.FieldSimp
import Mathlib.Tactic.NormNum

/-!
# Search directions: C18 (descent) and C55 (conjugate gradient restarts)
-/

set_option linter.unusedSectionVars false

namespace Verif.Dir

open scoped RealInnerProductSpace Classical

variable {E : Type*} [NormedAddCommGroup E] [InnerProductSpace ℝ E]

/-- `d` is a direction of sufficient descent for the gradient `g`: slope at most `-c |g|^2`. -/
def Descent (c : ℝ) (d g : E) : Prop := ⟪d, g⟫ ≤ -(c * ‖g‖ ^ 2)

theorem descent_of_not {c : ℝ} {d g : E} (hg : g ≠ 0) (h : ¬ notDescent c d g) : Descent c d g := by
  have hn : 0 < ‖g‖ := norm_pos_iff.mpr hg
  have h1 : ⟪d, g⟫ / ‖g‖ / ‖g‖ < -c := by
    by_contra hc
    exact h ⟨hn.ne', not_lt.mp hc⟩
  rw [div_div, div_lt_iff₀ (by positivity)] at h1
  unfold Descent
  nlinarith

theorem descent_neg {c : ℝ} (hc : c ≤ 1) (g : E) : Descent c (-g) g := by
  unfold Descent
  rw [inner_neg_left, real_inner_self_eq_norm_sq]
  nlinarith [sq_nonneg ‖g‖]

/-- C18 for the steepest descent solver: whatever the preconditioner, the direction has slope at most
`-sqrt(eps) |g|^2`. -/
theorem C18_rsd_descent {c : ℝ} (hc : c ≤ 1) (P : E → E) (g : E) (hg : g ≠ 0) :
    Descent c (rsdDir c P g) g := by
  unfold rsdDir
  dsimp only
  split
  · exact descent_neg hc g
  · rename_i h; exact descent_of_not hg h

/-- C18 (partial) for the conjugate gradient solver: for every candidate left by the update, every
preconditioner and iteration the direction has slope at most `-sqrt(eps) |g|^2`, provided the candidate is
a vector of numbers. Missing: NaN candidates, see the next theorem. -/
theorem C18_rcg_descent_partial {c : ℝ} (hc : c ≤ 1) (P : E → E) (iter : Nat) (e g : E) (hg : g ≠ 0) :
    ∃ d, rcgDir c P iter (some e) g = some d ∧ Descent c d g := by
  unfold rcgDir
  split
  · dsimp only
    split
    · exact ⟨_, rfl, descent_neg hc g⟩
    · rename_i h; exact ⟨_, rfl, descent_of_not hg h⟩
  · rename_i h
    refine ⟨e, rfl, descent_of_not hg fun hn => h (Or.inr ⟨e, rfl, hn⟩)⟩

/-- C18 at the first iteration holds without any condition on the candidate. -/
theorem C18_rcg_first_direction {c : ℝ} (hc : c ≤ 1) (P : E → E) (e : Option E) (g : E) (hg : g ≠ 0) :
    ∃ d, rcgDir c P 0 e g = some d ∧ Descent c d g := by
  unfold rcgDir
  rw [if_pos (Or.inl rfl)]
  dsimp only
  split
  · exact ⟨_, rfl, descent_neg hc g⟩
  · rename_i h; exact ⟨_, rfl, descent_of_not hg h⟩

/-- C18, the hole: a NaN candidate passes the safeguard and is used as the direction. -/
theorem C18_rcg_nan_not_caught (c : ℝ) (P : E → E) (iter : Nat) (g : E) :
    rcgDir c P (iter + 1) none g = none := by
  simp [rcgDir]

/-- NaN candidates do occur: with the Hestenes-Stiefel (or Dai-Yuan or Hager-Zhang) formula whenever the
change of gradient is orthogonal to the transported direction and the restart test is not triggered. -/
theorem C18_rcg_nan_occurs (m : Method) (hm : m = .hestenesStiefel ∨ m = .daiYuan ∨ m = .hagerZhang)
    (g1 g2 Pg1 Pg2 Tg1 Td : E) (h0 : ¬ rcgRestart g1 g2 Tg1) (hy : ⟪g2 - Tg1, Td⟫ = 0) :
    rcgUpdate m g1 g2 Pg1 Pg2 Tg1 Td = none := by
  unfold rcgUpdate
  rw [if_neg h0]
  rcases hm with rfl | rfl | rfl <;> simp [rcgSigma, quot, hy]

/-- The situation of the previous theorem is not vacuous. -/
example : ¬ rcgRestart (1 : ℝ) 0 0 ∧ ⟪(0 : ℝ) - 0, 5⟫ = 0 := by
  simp [rcgRestart]

/-- C55: if consecutive gradients are far from orthogonal (`|<g2, T g1>| > 0.1 <g1,g1>`), the next
candidate is exactly minus the gradient, for every formula. -/
theorem C55_restart (m : Method) (g1 g2 Pg1 Pg2 Tg1 Td : E) (hg : g1 ≠ 0)
    (h : 1 / 10 * ‖g1‖ ^ 2 < |⟪g2, Tg1⟫|) : rcgUpdate m g1 g2 Pg1 Pg2 Tg1 Td = some (-g2) := by
  have hn : 0 < ‖g1‖ := norm_pos_iff.mpr hg
  have hs : ⟪g1, g1⟫ = ‖g1‖ ^ 2 := real_inner_self_eq_norm_sq g1
  have hr : rcgRestart g1 g2 Tg1 := by
    unfold rcgRestart
    rw [hs, if_neg (by positivity), lt_div_iff₀ (by positivity)]
    exact h
  unfold rcgUpdate
  rw [if_pos hr]
  simp

/-- C55: otherwise the candidate is minus the gradient plus `sigma` times the transported direction, with
the formula of the method. -/
theorem C55_no_restart (m : Method) (g1 g2 Pg1 Pg2 Tg1 Td : E) (hg : g1 ≠ 0)
    (h : |⟪g2, Tg1⟫| ≤ 1 / 10 * ‖g1‖ ^ 2) (s : ℝ)
    (hs : rcgSigma m g1 g2 Pg1 Pg2 Tg1 Td = some s) :
    rcgUpdate m g1 g2 Pg1 Pg2 Tg1 Td = some (-g2 + s • Td) := by
  have hn : 0 < ‖g1‖ := norm_pos_iff.mpr hg
  have he : ⟪g1, g1⟫ = ‖g1‖ ^ 2 := real_inner_self_eq_norm_sq g1
  have hr : ¬ rcgRestart g1 g2 Tg1 := by
    unfold rcgRestart
    rw [he, if_neg (by positivity), lt_div_iff₀ (by positivity)]
    exact not_lt.mpr h
  unfold rcgUpdate
  rw [if_neg hr, hs]
  simp only [Option.map_some]
  split
  · rename_i h0; rw [h0]; simp
  · rfl

/-- C55, the documented formulas without preconditioner: Fletcher-Reeves. -/
theorem C55_fletcher_reeves (g1 g2 Tg1 Td : E) (hg : g1 ≠ 0) :
    rcgSigma .fletcherReeves g1 g2 g1 g2 Tg1 Td = some (‖g2‖ ^ 2 / ‖g1‖ ^ 2) := by
  have hn : 0 < ‖g1‖ := norm_pos_iff.mpr hg
  simp only [rcgSigma, quot, real_inner_self_eq_norm_sq]
  rw [if_neg (by positivity)]

/-- C55: the modified Polak-Ribiere factor is never negative. -/
theorem C55_polak_ribiere_nonneg (g1 g2 Pg1 Pg2 Tg1 Td : E) (s : ℝ)
    (hs : rcgSigma .polakRibiere g1 g2 Pg1 Pg2 Tg1 Td = some s) : 0 ≤ s := by
  simp only [rcgSigma] at hs
  obtain ⟨a, -, rfl⟩ := Option.map_eq_some_iff.mp hs
  split
  · exact le_refl _
  · rename_i h; exact not_lt.mp h

/-- C55: the hybrid factor lies between minus and plus the Fletcher-Reeves factor, if that one is
nonnegative (positive preconditioner). -/
theorem C55_frpr_between (g1 g2 Pg1 Pg2 Tg1 Td : E) (s fr : ℝ)
    (hfr : rcgSigma .fletcherReeves g1 g2 Pg1 Pg2 Tg1 Td = some fr) (h0 : 0 ≤ fr)
    (hs : rcgSigma .frPr g1 g2 Pg1 Pg2 Tg1 Td = some s) : |s| ≤ fr := by
  simp only [rcgSigma] at hs hfr
  rw [hfr, Option.bind_some] at hs
  obtain ⟨a, -, rfl⟩ := Option.map_eq_some_iff.mp hs
  rw [abs_le]
  split
  · constructor <;> linarith
  · split
    · constructor <;> linarith
    · constructor <;> linarith

/-- C55: with the Dai-Yuan formula, no preconditioner, isometric transport, a descent direction `Td` and
increasing slope (`<g2 - T g1, Td> > 0`, guaranteed by a Wolfe search) the new candidate is a descent
direction. -/
theorem C55_dai_yuan_descent (g1 g2 Tg1 Td d : E) (hg2 : g2 ≠ 0) (hw : 0 < ⟪g2 - Tg1, Td⟫)
    (hd : ⟪Tg1, Td⟫ < 0) (hr : ¬ rcgRestart g1 g2 Tg1)
    (h : rcgUpdate .daiYuan g1 g2 g1 g2 Tg1 Td = some d) : ⟪d, g2⟫ < 0 := by
  have hn : 0 < ‖g2‖ := norm_pos_iff.mpr hg2
  unfold rcgUpdate at h
  rw [if_neg hr] at h
  simp only [rcgSigma, quot, if_neg hw.ne', Option.map_some, real_inner_self_eq_norm_sq] at h
  have hs : ‖g2‖ ^ 2 / ⟪g2 - Tg1, Td⟫ ≠ 0 := by positivity
  rw [if_neg hs] at h
  injection h with h
  rw [← h, inner_add_left, inner_neg_left, inner_smul_left, real_inner_self_eq_norm_sq]
  simp only [conj_trivial]
  have e : ⟪g2 - Tg1, Td⟫ = ⟪Td, g2⟫ - ⟪Tg1, Td⟫ := by rw [inner_sub_left, real_inner_comm g2]
  rw [e] at hw ⊢
  rw [div_mul_eq_mul_div, neg_add_lt_iff_lt_add, add_zero, div_lt_iff₀ hw]
  nlinarith [sq_pos_of_pos hn]

/-- A concrete case of the Dai-Yuan theorem's hypotheses. -/
example : (1 / 20 : ℝ) ≠ 0 ∧ 0 < ⟪(1 / 20 : ℝ) - 1, -1⟫ ∧ ⟪(1 : ℝ), -1⟫ < 0 ∧
    ¬ rcgRestart (1 : ℝ) (1 / 20) 1 := by
  refine ⟨by norm_num, by simp; norm_num, by simp, ?_⟩
  simp [rcgRestart, abs_of_pos]
  norm_num

/-- A concrete restart. -/
example : rcgUpdate .hestenesStiefel (1 : ℝ) (1 / 2) 1 (1 / 2) 1 (-1) = some (-(1 / 2)) :=
  C55_restart _ _ _ _ _ _ _ one_ne_zero (by simp [abs_of_pos]; norm_num)

end Verif.Dir
