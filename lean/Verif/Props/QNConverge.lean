import Verif.Solver.QNRun
import Verif.Props.TraceDet
import Verif.Props.LRConverge

/-!
# C114: runs of the quasi-Newton solvers reach the requested gradient norm
-/

set_option linter.unusedSectionVars false
set_option linter.unusedVariables false

namespace Verif.Solver

open scoped RealInnerProductSpace Classical

open Verif.QN

variable {X E : Type} [NormedAddCommGroup E] [InnerProductSpace ℝ E] [FiniteDimensional ℝ E]

/-! ## Specification -/

/-- The vector the solver compares with its step: the change of the gradient, seen at the new point, or at the old one for `RWRBFGS`. -/
noncomputable def gradChange (G : Geo X E) (cot : X → E → E → E) (k : QNKind) (x : X) (η : E) : E :=
  match k with
  | .rwrbfgs => cot x η (G.grad (G.retr x η)) - G.grad x
  | _ => (1 / G.beta x η) • G.grad (G.retr x η) - G.T x η (G.grad x)

/-- The step, seen at the same point. -/
noncomputable def stepSeen (G : Geo X E) (k : QNKind) (x : X) (η : E) : E :=
  match k with
  | .rwrbfgs => η
  | _ => G.T x η η

/-- Hypotheses on problem and solver common to the two searches: the gradient is Lipschitz; the initial operator is positive definite; if the user declares the problem convex, it is strongly convex along
the steps (`isconvex` makes the solver rescale its operator). `P1` bounds the function `pot` of the initial operators. -/
structure QNSetting (G : Geo X E) (cot : X → E → E → E) (k : QNKind) (c : Cautious) (H0 B0 : E →ₗ[ℝ] E) (Ly m0 P1 thr : ℝ) : Prop where
  lip : ∀ x η, ‖gradChange G cot k x η‖ ≤ Ly * ‖η‖
  conv : c.isconvex = true → ∀ x η, m0 * ‖η‖ ^ 2 ≤ ⟪stepSeen G k x η, gradChange G cot k x η⟫
  inv0 : InvPair H0 B0
  pot0 : pot H0 B0 ≤ P1
  potc : c.isconvex = true → Module.finrank ℝ E * (Ly ^ 2 / m0 - Real.log m0) + max (Ly ^ 2 / curv ⟨c, true, 0⟩ thr - Real.log (curv ⟨c, true, 0⟩ thr)) 1 ≤ P1
  Lypos : 0 < Ly
  m0pos : 0 < m0
  nu : 0 < c.nu
  mu : 0 ≤ c.mu
  thrpos : 0 < thr

/-- Constants: growth of `pot` in an update. -/
noncomputable def qnR (c : Cautious) (Ly thr : ℝ) : ℝ := max (Ly ^ 2 / curv ⟨c, true, 0⟩ thr - Real.log (curv ⟨c, true, 0⟩ thr)) 1

/-- Constants: weight of `pot` against the objective; accepted steps are at least `lo` or `κ` times the slope divided by the squared length. -/
noncomputable def qnWeight (c : Cautious) (Ly thr α lo κ : ℝ) : ℝ :=
  α * thr ^ 2 * min lo (κ * Real.exp (-qnR c Ly thr)) / (2 * qnR c Ly thr) / qnR c Ly thr

/-- Bound of `pot` along a run that decreases the objective by at most `D`. -/
noncomputable def qnPot (c : Cautious) (Ly P1 thr α lo κ D : ℝ) : ℝ := D / qnWeight c Ly thr α lo κ + P1 + 1

/-! ## Directions -/

/-- Operators with bounded `pot` give gradient related directions. -/
theorem qn_dir {H B : E →ₗ[ℝ] E} (h : InvPair H B) {Φ : ℝ} (hΦ0 : 0 < Φ) (hΦ : pot H B ≤ Φ) (g : E) :
    ⟪g, qnDir H g⟫ ≤ -(1 / (2 * Φ)) * ‖g‖ ^ 2 ∧ ‖qnDir H g‖ ≤ Real.exp Φ * ‖g‖ := by
  have hb := h.bounds hΦ
  set u := H g with hu
  have hBu : B u = g := h.left g
  have hup : ⟪g, qnDir H g⟫ = -⟪B u, u⟫ := by rw [qnDir, inner_neg_right, hBu]
  have hn : ‖qnDir H g‖ = ‖u‖ := by rw [qnDir, norm_neg]
  have hq0 : 0 ≤ ⟪B u, u⟫ := (mul_nonneg (Real.exp_pos _).le (sq_nonneg _)).trans (hb u).1
  constructor
  · rw [hup]
    -- Cauchy-Schwarz for the form of B
    have key : ‖g‖ ^ 2 ≤ 2 * Φ * ⟪B u, u⟫ := by
      have hpos : ∀ r : ℝ, 0 ≤ ⟪B u, u⟫ - 2 * r * ‖g‖ ^ 2 + r ^ 2 * (2 * Φ * ‖g‖ ^ 2) := by
        intro r
        have h1 : 0 ≤ ⟪B (u - r • g), u - r • g⟫ := (mul_nonneg (Real.exp_pos _).le (sq_nonneg _)).trans (hb (u - r • g)).1
        have h2 : ⟪B (u - r • g), u - r • g⟫ = ⟪B u, u⟫ - 2 * r * ‖g‖ ^ 2 + r ^ 2 * ⟪B g, g⟫ := by
          rw [map_sub, map_smul, inner_sub_left, inner_sub_right, inner_sub_right, inner_smul_left, inner_smul_left, inner_smul_right, inner_smul_right, h.spdB.1 g u, hBu,
            real_inner_self_eq_norm_sq]
          simp only [conj_trivial]
          ring
        have h3 := mul_le_mul_of_nonneg_left (hb g).2 (sq_nonneg r)
        linarith
      have h4 := hpos (1 / (2 * Φ))
      have h5 : (1 / (2 * Φ)) ^ 2 * (2 * Φ * ‖g‖ ^ 2) = 1 / (2 * Φ) * ‖g‖ ^ 2 := by field_simp
      rw [h5] at h4
      have h6 : 1 / (2 * Φ) * ‖g‖ ^ 2 ≤ ⟪B u, u⟫ := by linarith
      have h7 := mul_le_mul_of_nonneg_left h6 (by positivity : 0 ≤ 2 * Φ)
      have h8 : 2 * Φ * (1 / (2 * Φ) * ‖g‖ ^ 2) = ‖g‖ ^ 2 := by field_simp
      linarith
    have : 1 / (2 * Φ) * ‖g‖ ^ 2 ≤ ⟪B u, u⟫ := by
      have := mul_le_mul_of_nonneg_left key (by positivity : 0 ≤ 1 / (2 * Φ))
      have e : 1 / (2 * Φ) * (2 * Φ * ⟪B u, u⟫) = ⟪B u, u⟫ := by field_simp
      linarith
    linarith
  · rw [hn]
    have h1 := (hb u).1
    rw [hBu] at h1
    have h2 := real_inner_le_norm g u
    rcases (norm_nonneg u).eq_or_lt with h0 | h0
    · rw [← h0]; positivity
    · have h3 : Real.exp (-Φ) * ‖u‖ ≤ ‖g‖ := by
        have : Real.exp (-Φ) * ‖u‖ * ‖u‖ ≤ ‖g‖ * ‖u‖ := by nlinarith
        exact le_of_mul_le_mul_right this h0
      have h4 := mul_le_mul_of_nonneg_left h3 (Real.exp_pos Φ).le
      rw [← mul_assoc, ← Real.exp_add, add_neg_cancel, Real.exp_zero, one_mul] at h4
      exact h4

/-! ## Updates -/

theorem rbfgs_accept (c : Cautious) (p : Call E) (H : E →ₗ[ℝ] E) (ha : acceptPair c p.ngf2 p.ngf0 ⟪p.s, p.s⟫ ⟪p.s, p.y⟫) (h0 : ⟪p.s, p.y⟫ ≠ 0) :
    rbfgs c p H = some (bfgsThree (tranH p.T (if c.isconvex = true ∧ p.iter = 1 ∧ 0 < ⟪p.s, p.y⟫ then (⟪p.s, p.y⟫ / ⟪p.y, p.y⟫) • LinearMap.id else H)) p.s p.y ⟪p.s, p.y⟫) := by
  simp only [rbfgs, if_pos ha, if_neg h0]

theorem rbfgs_reject (c : Cautious) (p : Call E) (H : E →ₗ[ℝ] E) (ha : ¬ acceptPair c p.ngf2 p.ngf0 ⟪p.s, p.s⟫ ⟪p.s, p.y⟫) :
    rbfgs c p H = some (tranH p.T (if c.isconvex = true ∧ p.iter = 1 ∧ 0 < ⟪p.s, p.y⟫ then (⟪p.s, p.y⟫ / ⟪p.y, p.y⟫) • LinearMap.id else H)) := by
  simp only [rbfgs, if_neg ha]

theorem rbroyden_accept (c : Cautious) (p : Call E) (H : E →ₗ[ℝ] E) (ha : acceptPair c p.ngf2 p.ngf0 ⟪p.s, p.s⟫ ⟪p.s, p.y⟫) (h0 : 0 < ⟪p.s, p.y⟫)
    (hspd : IsSPD (tranH p.T (if c.isconvex = true ∧ p.iter = 1 ∧ 0 < ⟪p.s, p.y⟫ then (⟪p.s, p.y⟫ / ⟪p.y, p.y⟫) • LinearMap.id else H))) :
    rbroyden c 1 p H = some (bfgsThree (tranH p.T (if c.isconvex = true ∧ p.iter = 1 ∧ 0 < ⟪p.s, p.y⟫ then (⟪p.s, p.y⟫ / ⟪p.y, p.y⟫) • LinearMap.id else H)) p.s p.y ⟪p.s, p.y⟫) := by
  have hy0 : p.y ≠ 0 := by intro h; rw [h, inner_zero_right] at h0; exact lt_irrefl _ h0
  have hyHy := hspd.2 p.y hy0
  rw [real_inner_comm] at hyHy
  have hn : ¬ (⟪p.s, p.y⟫ = 0 ∨ ⟪p.y, tranH p.T (if c.isconvex = true ∧ p.iter = 1 ∧ 0 < ⟪p.s, p.y⟫ then (⟪p.s, p.y⟫ / ⟪p.y, p.y⟫) • LinearMap.id else H) p.y⟫ = 0) := by
    rintro (h1 | h1)
    · exact h0.ne' h1
    · exact hyHy.ne' h1
  simp only [rbroyden, if_pos ha, if_neg hn]
  rw [C23_broyden_default_is_bfgs hspd.1 h0.ne' hyHy.ne']

theorem rbroyden_reject (c : Cautious) (p : Call E) (H : E →ₗ[ℝ] E) (ha : ¬ acceptPair c p.ngf2 p.ngf0 ⟪p.s, p.s⟫ ⟪p.s, p.y⟫) :
    rbroyden c 1 p H = some (tranH p.T (if c.isconvex = true ∧ p.iter = 1 ∧ 0 < ⟪p.s, p.y⟫ then (⟪p.s, p.y⟫ / ⟪p.y, p.y⟫) • LinearMap.id else H)) := by
  simp only [rbroyden, if_neg ha]

theorem rwrbfgs_accept (c : Cautious) (p : Call E) (cot : E) (H H1 : E →ₗ[ℝ] E) (hH1 : H1 = if c.isconvex = true ∧ p.iter = 1 ∧ 0 < ⟪p.eta2, cot - p.gf1⟫ then (⟪p.eta2, cot - p.gf1⟫ / ⟪cot - p.gf1, cot - p.gf1⟫) • LinearMap.id else H)
    (ha : acceptPair c p.ngf2 p.ngf0 ⟪p.eta2, p.eta2⟫ ⟪p.eta2, cot - p.gf1⟫) (h0 : ⟪p.eta2, cot - p.gf1⟫ ≠ 0) :
    rwrbfgs c p cot H = some (tranH p.T (bfgsThree H1 p.eta2 (cot - p.gf1) ⟪p.eta2, cot - p.gf1⟫)) := by
  subst hH1
  simp only [rwrbfgs, if_pos ha, if_neg h0]

theorem rwrbfgs_reject (c : Cautious) (p : Call E) (cot : E) (H H1 : E →ₗ[ℝ] E) (hH1 : H1 = if c.isconvex = true ∧ p.iter = 1 ∧ 0 < ⟪p.eta2, cot - p.gf1⟫ then (⟪p.eta2, cot - p.gf1⟫ / ⟪cot - p.gf1, cot - p.gf1⟫) • LinearMap.id else H)
    (ha : ¬ acceptPair c p.ngf2 p.ngf0 ⟪p.eta2, p.eta2⟫ ⟪p.eta2, cot - p.gf1⟫) :
    rwrbfgs c p cot H = some (tranH p.T H1) := by
  subst hH1
  simp only [rwrbfgs, if_neg ha]

/-- An accepted pair. -/
theorem pot_update {H B : E →ₗ[ℝ] E} (h : InvPair H B) {m Ly : ℝ} (hm : 0 < m) (hL : 0 < Ly) {s y : E} (hs : 0 < ‖s‖) (hc : m * ‖s‖ ^ 2 ≤ ⟪s, y⟫) (hy : ‖y‖ ≤ Ly * ‖s‖) :
    ∃ B', InvPair (bfgsThree H s y ⟪s, y⟫) B' ∧
      pot (bfgsThree H s y ⟪s, y⟫) B' ≤ pot H B + (Ly ^ 2 / m - Real.log m) - ‖B s‖ ^ 2 / ⟪B s, s⟫ + Real.log (⟪B s, s⟫ / ‖s‖ ^ 2) := by
  have hsy : 0 < ⟪s, y⟫ := lt_of_lt_of_le (by positivity) hc
  have hBs : 0 < ⟪B s, s⟫ := h.spdB.2 s (norm_pos_iff.mp hs)
  refine ⟨_, h.bfgs hsy, ?_⟩
  rw [h.pot_bfgs hsy]
  have h1 : ‖y‖ ^ 2 / ⟪s, y⟫ ≤ Ly ^ 2 / m := by
    rw [div_le_div_iff₀ hsy hm]
    have : ‖y‖ ^ 2 ≤ (Ly * ‖s‖) ^ 2 := pow_le_pow_left₀ (norm_nonneg _) hy 2
    calc ‖y‖ ^ 2 * m ≤ (Ly * ‖s‖) ^ 2 * m := mul_le_mul_of_nonneg_right this hm.le
      _ = Ly ^ 2 * (m * ‖s‖ ^ 2) := by ring
      _ ≤ _ := mul_le_mul_of_nonneg_left hc (sq_nonneg _)
  have h2 : Real.log (⟪B s, s⟫ / ⟪s, y⟫) ≤ Real.log (⟪B s, s⟫ / ‖s‖ ^ 2) - Real.log m := by
    rw [← Real.log_div (by positivity) hm.ne', div_div]
    apply Real.log_le_log (by positivity)
    exact div_le_div_of_nonneg_left hBs.le (by positivity) (by rw [mul_comm]; exact hc)
  linarith

section update

variable {G : Geo X E} {cot : X → E → E → E} {k : QNKind} {c : Cautious} {H0 B0 : E →ₗ[ℝ] E} {Ly m0 P1 thr : ℝ} (S : QNSetting G cot k c H0 B0 Ly m0 P1 thr)
include S

theorem QNSetting.curv_pos : 0 < curv ⟨c, true, 0⟩ thr := mul_pos S.nu (Real.rpow_pos_of_pos S.thrpos _)

theorem QNSetting.scale {x : X} {η : E} (hc : c.isconvex = true) (h0 : 0 < ⟪stepSeen G k x η, gradChange G cot k x η⟫) :
    0 < ⟪stepSeen G k x η, gradChange G cot k x η⟫ / ⟪gradChange G cot k x η, gradChange G cot k x η⟫ ∧
      pot ((⟪stepSeen G k x η, gradChange G cot k x η⟫ / ⟪gradChange G cot k x η, gradChange G cot k x η⟫) • LinearMap.id : E →ₗ[ℝ] E)
        ((1 / (⟪stepSeen G k x η, gradChange G cot k x η⟫ / ⟪gradChange G cot k x η, gradChange G cot k x η⟫)) • LinearMap.id) ≤
        Module.finrank ℝ E * (Ly ^ 2 / m0 - Real.log m0) := by
  set s := stepSeen G k x η with hs
  set y := gradChange G cot k x η with hy
  have hsn : ‖s‖ = ‖η‖ := by rw [hs]; cases k <;> simp [stepSeen]
  have hl : ‖y‖ ≤ Ly * ‖s‖ := by rw [hsn]; exact S.lip x η
  have hcv : m0 * ‖s‖ ^ 2 ≤ ⟪s, y⟫ := by rw [hsn]; exact S.conv hc x η
  have hm := S.m0pos
  have hL := S.Lypos
  have hsp : 0 < ‖s‖ := by
    rw [norm_pos_iff]; intro h; rw [h, inner_zero_left] at h0; exact lt_irrefl _ h0
  have hyp : 0 < ‖y‖ := by
    rw [norm_pos_iff]; intro h; rw [h, inner_zero_right] at h0; exact lt_irrefl _ h0
  rw [real_inner_self_eq_norm_sq]
  have hc0 : 0 < ⟪s, y⟫ / ‖y‖ ^ 2 := by positivity
  refine ⟨hc0, ?_⟩
  rw [pot_scaled hc0]
  refine mul_le_mul_of_nonneg_left ?_ (Nat.cast_nonneg _)
  have h1 : 1 / (⟪s, y⟫ / ‖y‖ ^ 2) ≤ Ly ^ 2 / m0 := by
    rw [one_div_div, div_le_div_iff₀ h0 hm]
    have : ‖y‖ ^ 2 ≤ (Ly * ‖s‖) ^ 2 := pow_le_pow_left₀ (norm_nonneg _) hl 2
    calc ‖y‖ ^ 2 * m0 ≤ (Ly * ‖s‖) ^ 2 * m0 := mul_le_mul_of_nonneg_right this hm.le
      _ = Ly ^ 2 * (m0 * ‖s‖ ^ 2) := by ring
      _ ≤ _ := mul_le_mul_of_nonneg_left hcv (sq_nonneg _)
  have h2 : ⟪s, y⟫ / ‖y‖ ^ 2 ≤ 1 / m0 := by
    have hcs := real_inner_le_norm s y
    have h3 : m0 * ‖s‖ ≤ ‖y‖ := by
      have : m0 * ‖s‖ * ‖s‖ ≤ ‖y‖ * ‖s‖ := by nlinarith
      exact le_of_mul_le_mul_right this hsp
    rw [div_le_div_iff₀ (by positivity) hm, one_mul]
    calc ⟪s, y⟫ * m0 ≤ ‖s‖ * ‖y‖ * m0 := mul_le_mul_of_nonneg_right hcs hm.le
      _ = (m0 * ‖s‖) * ‖y‖ := by ring
      _ ≤ ‖y‖ * ‖y‖ := mul_le_mul_of_nonneg_right h3 hyp.le
      _ = ‖y‖ ^ 2 := by ring
  have h4 : Real.log (⟪s, y⟫ / ‖y‖ ^ 2) ≤ -Real.log m0 := by
    rw [← Real.log_inv, ← one_div]; exact Real.log_le_log hc0 h2
  linarith

/-- One call of `UpdateData` after a step from a point that is not yet good enough: nothing is divided by zero, and either `pot` stays the same, or it grows by at most a constant minus what the
step tells, or it is bounded by `P1`. -/
theorem qn_update {H B : E →ₗ[ℝ] E} (h : InvPair H B) {x : X} (hg : thr ≤ ‖G.grad x‖) {t : ℝ} (ht : 0 < t) (ngf0 : ℝ) (it : ℕ) :
    ∃ H' B', qnUpdate k c (cot x (t • qnDir H (G.grad x)) (G.grad (G.retr x (t • qnDir H (G.grad x)))))
        { T := G.T x (t • qnDir H (G.grad x)), eta2 := t • qnDir H (G.grad x), gf1 := G.grad x, gf2 := G.grad (G.retr x (t • qnDir H (G.grad x))), beta := G.beta x (t • qnDir H (G.grad x)),
          ngf2 := ‖G.grad x‖, ngf0 := ngf0, iter := it } H = some H' ∧ InvPair H' B' ∧
      (pot H' B' ≤ pot H B ∨ pot H' B' ≤ P1 ∨
        pot H' B' ≤ pot H B + qnR c Ly thr - ‖G.grad x‖ ^ 2 / -⟪G.grad x, qnDir H (G.grad x)⟫ + Real.log (-⟪G.grad x, qnDir H (G.grad x)⟫ / ‖qnDir H (G.grad x)‖ ^ 2)) := by
  set g := G.grad x with hgdef
  set d := qnDir H g with hd
  set η := t • d with hη
  set x2 := G.retr x η with hx2
  have hm := S.curv_pos
  set m := curv ⟨c, true, 0⟩ thr with hmdef
  have hL := S.Lypos
  have hgp : 0 < ‖g‖ := lt_of_lt_of_le S.thrpos hg
  have hBd : B d = -g := by rw [hd, qnDir, map_neg, h.left]
  have hR : Ly ^ 2 / m - Real.log m ≤ qnR c Ly thr := le_max_left _ _
  -- the acceptance test gives curvature
  have hcur : ∀ {s y : E}, acceptPair c ‖g‖ ngf0 ⟪s, s⟫ ⟪s, y⟫ → 0 < ‖s‖ ∧ m * ‖s‖ ^ 2 ≤ ⟪s, y⟫ := by
    rintro s y ⟨⟨h0, h1⟩, -⟩
    rw [real_inner_self_eq_norm_sq] at h0 h1
    have hsp : 0 < ‖s‖ ^ 2 := lt_of_le_of_ne (sq_nonneg _) (Ne.symm h0)
    have hpow : thr ^ c.mu ≤ ‖g‖ ^ c.mu := Real.rpow_le_rpow S.thrpos.le hg S.mu
    refine ⟨by by_contra hc; rw [not_lt] at hc; have := le_antisymm hc (norm_nonneg _); rw [this] at hsp; simp at hsp, ?_⟩
    have h2 : m ≤ ⟪s, y⟫ / ‖s‖ ^ 2 := (mul_le_mul_of_nonneg_left hpow S.nu.le).trans h1
    rwa [le_div_iff₀ hsp] at h2
  -- what an accepted pair does to the operator that was not rescaled
  have hacc : ∀ {H1 B1 : E →ₗ[ℝ] E} {s y : E}, InvPair H1 B1 → pot H1 B1 = pot H B → ‖s‖ = ‖η‖ → ‖B1 s‖ = ‖B η‖ → ⟪B1 s, s⟫ = ⟪B η, η⟫ → ‖y‖ ≤ Ly * ‖s‖ →
      0 < ‖s‖ → m * ‖s‖ ^ 2 ≤ ⟪s, y⟫ → ∃ B', InvPair (bfgsThree H1 s y ⟪s, y⟫) B' ∧
        pot (bfgsThree H1 s y ⟪s, y⟫) B' ≤ pot H B + qnR c Ly thr - ‖g‖ ^ 2 / -⟪g, d⟫ + Real.log (-⟪g, d⟫ / ‖d‖ ^ 2) := by
    intro H1 B1 s y hI hp e1 e2 e3 hl hs hc
    obtain ⟨B', k1, k2⟩ := pot_update hI hm hL hs hc hl
    refine ⟨B', k1, k2.trans ?_⟩
    have q1 : B η = (-t) • g := by rw [hη, map_smul, hBd, smul_neg, neg_smul]
    have q2 : ‖B1 s‖ ^ 2 / ⟪B1 s, s⟫ = ‖g‖ ^ 2 / -⟪g, d⟫ := by
      rw [e2, e3, q1, hη, norm_smul, inner_smul_left, inner_smul_right, Real.norm_eq_abs, mul_pow, sq_abs]
      simp only [conj_trivial]
      rw [show -t * (t * ⟪g, d⟫) = t ^ 2 * -⟪g, d⟫ by ring, neg_sq, mul_div_mul_left _ _ (by positivity)]
    have q3 : ⟪B1 s, s⟫ / ‖s‖ ^ 2 = -⟪g, d⟫ / ‖d‖ ^ 2 := by
      rw [e1, e3, q1, hη, norm_smul, inner_smul_left, inner_smul_right, Real.norm_eq_abs, mul_pow, sq_abs]
      simp only [conj_trivial]
      rw [show -t * (t * ⟪g, d⟫) = t ^ 2 * -⟪g, d⟫ by ring, mul_div_mul_left _ _ (by positivity)]
    rw [q2, q3, hp]
    linarith
  -- and to the rescaled one
  have hres : ∀ {H1 B1 : E →ₗ[ℝ] E} {s y : E} {a : ℝ}, c.isconvex = true → 0 < a → InvPair H1 B1 → pot H1 B1 ≤ Module.finrank ℝ E * (Ly ^ 2 / m0 - Real.log m0) → (∀ v, B1 v = (1 / a) • v) →
      ‖y‖ ≤ Ly * ‖s‖ → 0 < ‖s‖ → m * ‖s‖ ^ 2 ≤ ⟪s, y⟫ → ∃ B', InvPair (bfgsThree H1 s y ⟪s, y⟫) B' ∧ pot (bfgsThree H1 s y ⟪s, y⟫) B' ≤ P1 := by
    intro H1 B1 s y a hcv ha hI hp hB hl hs hc
    obtain ⟨B', k1, k2⟩ := pot_update hI hm hL hs hc hl
    refine ⟨B', k1, k2.trans ?_⟩
    have q2 : ‖B1 s‖ ^ 2 / ⟪B1 s, s⟫ = 1 / a := by
      rw [hB, norm_smul, inner_smul_left, real_inner_self_eq_norm_sq, Real.norm_eq_abs, mul_pow, sq_abs]
      simp only [conj_trivial]
      field_simp
    have q3 : ⟪B1 s, s⟫ / ‖s‖ ^ 2 = 1 / a := by
      rw [hB, inner_smul_left, real_inner_self_eq_norm_sq]
      simp only [conj_trivial]
      field_simp
    rw [q2, q3]
    have := sub_log_ge (one_div_pos.mpr ha)
    have := S.potc hcv
    have : qnR c Ly thr = max (Ly ^ 2 / curv ⟨c, true, 0⟩ thr - Real.log (curv ⟨c, true, 0⟩ thr)) 1 := rfl
    linarith
  have hpc : c.isconvex = true → Module.finrank ℝ E * (Ly ^ 2 / m0 - Real.log m0) ≤ P1 := by
    intro hcv
    have := S.potc hcv
    have := le_max_right (Ly ^ 2 / m - Real.log m) (1 : ℝ)
    linarith
  have hlip := S.lip x η
  have htr : ∀ {H1 B1 : E →ₗ[ℝ] E}, ‖tranH (G.T x η) B1 (G.T x η η)‖ = ‖B1 η‖ := by
    intro _ B1; rw [tranH_apply, LinearIsometryEquiv.symm_apply_apply, LinearIsometryEquiv.norm_map]
  have htr2 : ∀ {B1 : E →ₗ[ℝ] E}, ⟪tranH (G.T x η) B1 (G.T x η η), G.T x η η⟫ = ⟪B1 η, η⟫ := by
    intro B1; rw [tranH_apply, LinearIsometryEquiv.symm_apply_apply, LinearIsometryEquiv.inner_map_map]
  -- the two solvers that work at the new point
  have hnew : ∀ s y : E, s = G.T x η η → y = (1 / G.beta x η) • G.grad x2 - G.T x η g → k ≠ .rwrbfgs → ∀ H1, H1 = (if c.isconvex = true ∧ it = 1 ∧ 0 < ⟪s, y⟫ then (⟪s, y⟫ / ⟪y, y⟫) • LinearMap.id else H) →
      (¬ acceptPair c ‖g‖ ngf0 ⟪s, s⟫ ⟪s, y⟫ → ∃ B', InvPair (tranH (G.T x η) H1) B' ∧ (pot (tranH (G.T x η) H1) B' ≤ pot H B ∨ pot (tranH (G.T x η) H1) B' ≤ P1 ∨
        pot (tranH (G.T x η) H1) B' ≤ pot H B + qnR c Ly thr - ‖g‖ ^ 2 / -⟪g, d⟫ + Real.log (-⟪g, d⟫ / ‖d‖ ^ 2))) ∧
      (acceptPair c ‖g‖ ngf0 ⟪s, s⟫ ⟪s, y⟫ → 0 < ⟪s, y⟫ ∧ IsSPD (tranH (G.T x η) H1) ∧ ∃ B', InvPair (bfgsThree (tranH (G.T x η) H1) s y ⟪s, y⟫) B' ∧
        (pot (bfgsThree (tranH (G.T x η) H1) s y ⟪s, y⟫) B' ≤ pot H B ∨ pot (bfgsThree (tranH (G.T x η) H1) s y ⟪s, y⟫) B' ≤ P1 ∨
        pot (bfgsThree (tranH (G.T x η) H1) s y ⟪s, y⟫) B' ≤ pot H B + qnR c Ly thr - ‖g‖ ^ 2 / -⟪g, d⟫ + Real.log (-⟪g, d⟫ / ‖d‖ ^ 2))) := by
    rintro s y rfl rfl hk H1 hH1
    have e1 : stepSeen G k x η = G.T x η η := by cases k <;> first | rfl | exact absurd rfl hk
    have e2 : gradChange G cot k x η = (1 / G.beta x η) • G.grad x2 - G.T x η g := by cases k <;> first | rfl | exact absurd rfl hk
    set s := G.T x η η with hs
    set y := (1 / G.beta x η) • G.grad x2 - G.T x η g with hy
    have hsn : ‖s‖ = ‖η‖ := LinearIsometryEquiv.norm_map _ _
    have hl : ‖y‖ ≤ Ly * ‖s‖ := by rw [hsn, ← e2]; exact hlip
    by_cases hr : c.isconvex = true ∧ it = 1 ∧ 0 < ⟪s, y⟫
    · rw [if_pos hr] at hH1
      have hsc := S.scale (x := x) (η := η) hr.1 (by rw [e1, e2]; exact hr.2.2)
      rw [e1, e2] at hsc
      set a := ⟪s, y⟫ / ⟪y, y⟫ with ha
      have hI : InvPair (tranH (G.T x η) H1) (tranH (G.T x η) ((1 / a) • LinearMap.id)) := by rw [hH1]; exact (invPair_scaled hsc.1).tran _
      have hp : pot (tranH (G.T x η) H1) (tranH (G.T x η) ((1 / a) • LinearMap.id)) ≤ Module.finrank ℝ E * (Ly ^ 2 / m0 - Real.log m0) := by rw [hH1, pot_tran]; exact hsc.2
      refine ⟨fun _ => ⟨_, hI, Or.inr (Or.inl (hp.trans (hpc hr.1)))⟩, fun ha' => ?_⟩
      obtain ⟨hsp, hc⟩ := hcur ha'
      obtain ⟨B', k1, k2⟩ := hres hr.1 hsc.1 hI hp (fun v => by rw [tranH_apply]; simp) hl hsp hc
      exact ⟨hr.2.2, hI.spd, B', k1, Or.inr (Or.inl k2)⟩
    · rw [if_neg hr] at hH1
      rw [hH1]
      refine ⟨fun _ => ⟨_, h.tran _, Or.inl (pot_tran _ _ _).le⟩, fun ha' => ?_⟩
      obtain ⟨hsp, hc⟩ := hcur ha'
      obtain ⟨B', k1, k2⟩ := hacc (h.tran (G.T x η)) (pot_tran _ _ _) hsn (htr (H1 := H)) htr2 hl hsp hc
      exact ⟨lt_of_lt_of_le (by positivity) hc, tranH_spd h.spd, B', k1, Or.inr (Or.inr k2)⟩
  set pc : Call E := { T := G.T x η, eta2 := η, gf1 := g, gf2 := G.grad x2, beta := G.beta x η, ngf2 := ‖g‖, ngf0 := ngf0, iter := it } with hpc'
  cases k with
  | rbfgs =>
    obtain ⟨n1, n2⟩ := hnew pc.s pc.y rfl rfl (by simp) _ rfl
    by_cases ha : acceptPair c ‖g‖ ngf0 ⟪pc.s, pc.s⟫ ⟪pc.s, pc.y⟫
    · obtain ⟨hsy, _, B', k1, k2⟩ := n2 ha
      exact ⟨_, B', rbfgs_accept c pc H ha hsy.ne', k1, k2⟩
    · obtain ⟨B', k1, k2⟩ := n1 ha
      exact ⟨_, B', rbfgs_reject c pc H ha, k1, k2⟩
  | rbroyden =>
    obtain ⟨n1, n2⟩ := hnew pc.s pc.y rfl rfl (by simp) _ rfl
    by_cases ha : acceptPair c ‖g‖ ngf0 ⟪pc.s, pc.s⟫ ⟪pc.s, pc.y⟫
    · obtain ⟨hsy, hspd, B', k1, k2⟩ := n2 ha
      exact ⟨_, B', rbroyden_accept c pc H ha hsy hspd, k1, k2⟩
    · obtain ⟨B', k1, k2⟩ := n1 ha
      exact ⟨_, B', rbroyden_reject c pc H ha, k1, k2⟩
  | rwrbfgs =>
    set ct := cot x η (G.grad x2) with hct
    set y := ct - g with hy
    have e1 : stepSeen G .rwrbfgs x η = η := rfl
    have e2 : gradChange G cot .rwrbfgs x η = y := rfl
    have hl : ‖y‖ ≤ Ly * ‖η‖ := hlip
    by_cases hr : c.isconvex = true ∧ it = 1 ∧ 0 < ⟪η, y⟫
    · have hsc := S.scale (x := x) (η := η) hr.1 (by rw [e1, e2]; exact hr.2.2)
      rw [e1, e2] at hsc
      set a := ⟪η, y⟫ / ⟪y, y⟫ with ha
      by_cases ha' : acceptPair c ‖g‖ ngf0 ⟪η, η⟫ ⟪η, y⟫
      · obtain ⟨hsp, hc⟩ := hcur ha'
        obtain ⟨B', k1, k2⟩ := hres hr.1 hsc.1 (invPair_scaled hsc.1) hsc.2 (fun v => by simp) hl hsp hc
        exact ⟨_, _, rwrbfgs_accept c pc ct H _ (if_pos hr).symm ha' hr.2.2.ne', k1.tran _, Or.inr (Or.inl (by rw [pot_tran]; exact k2))⟩
      · exact ⟨_, _, rwrbfgs_reject c pc ct H _ (if_pos hr).symm ha', (invPair_scaled hsc.1).tran _, Or.inr (Or.inl (by rw [pot_tran]; exact hsc.2.trans (hpc hr.1)))⟩
    · by_cases ha' : acceptPair c ‖g‖ ngf0 ⟪η, η⟫ ⟪η, y⟫
      · obtain ⟨hsp, hc⟩ := hcur ha'
        obtain ⟨B', k1, k2⟩ := hacc h rfl rfl rfl rfl hl hsp hc
        exact ⟨_, _, rwrbfgs_accept c pc ct H _ (if_neg hr).symm ha' (lt_of_lt_of_le (by positivity) hc).ne', k1.tran _, Or.inr (Or.inr (by rw [pot_tran]; exact k2))⟩
      · exact ⟨_, _, rwrbfgs_reject c pc ct H _ (if_neg hr).symm ha', h.tran _, Or.inl (pot_tran _ _ _).le⟩

end update

/-! ## Descent of objective plus weighted `pot` -/

theorem qn_decrease {g2 σ d2 t f f' p p' R α lo κ thr : ℝ} (hσ : 0 < σ) (hthr : 0 < thr) (hg : thr ^ 2 ≤ g2) (hd : 0 < d2) (hcs : σ * σ ≤ g2 * d2) (hR : 1 ≤ R) (hα : 0 < α) (hlo : 0 < lo) (hκ : 0 < κ)
    (ht0 : 0 < t) (ht : min lo (κ * (σ / d2)) ≤ t) (hf : f' ≤ f - α * t * σ) (hp : p' ≤ p + R - g2 / σ + Real.log (σ / d2)) :
    f' + α * thr ^ 2 * min lo (κ * Real.exp (-R)) / (2 * R) / R * p' ≤ f + α * thr ^ 2 * min lo (κ * Real.exp (-R)) / (2 * R) / R * p := by
  have hg2 : 0 < g2 := lt_of_lt_of_le (by positivity) hg
  set a := g2 / σ with ha
  set b := σ / d2 with hb
  have ha0 : 0 < a := div_pos hg2 hσ
  have hb0 : 0 < b := div_pos hσ hd
  have hba : b ≤ a := by rw [ha, hb, div_le_div_iff₀ hd hσ]; exact hcs
  have hlog : Real.log b ≤ Real.log a := Real.log_le_log hb0 hba
  have hm : 0 < min lo (κ * Real.exp (-R)) := lt_min hlo (by positivity)
  set w := α * thr ^ 2 * min lo (κ * Real.exp (-R)) / (2 * R) / R with hw
  have hR0 : 0 < R := by linarith
  have hw0 : 0 < w := by rw [hw]; positivity
  have hdec : 0 < α * t * σ := by positivity
  by_cases hv : R ≤ a - Real.log b
  · have : w * p' ≤ w * p := mul_le_mul_of_nonneg_left (by linarith) hw0.le
    linarith
  · push Not at hv
    have h1 := half_le_sub_log ha0
    have h2 := sub_log_ge ha0
    have h3 : a < 2 * R := by linarith
    have h4 : Real.exp (-R) ≤ b := by
      rw [← Real.le_log_iff_exp_le hb0]; linarith
    have h5 : thr ^ 2 / (2 * R) ≤ σ := by
      rw [div_le_iff₀ (by positivity)]
      rw [ha, div_lt_iff₀ hσ] at h3
      linarith
    have h6 : min lo (κ * Real.exp (-R)) ≤ t := (min_le_min le_rfl (mul_le_mul_of_nonneg_left h4 hκ.le)).trans ht
    have h7 : w * R ≤ α * t * σ := by
      have e : w * R = α * min lo (κ * Real.exp (-R)) * (thr ^ 2 / (2 * R)) := by rw [hw]; field_simp
      rw [e]
      exact mul_le_mul (mul_le_mul_of_nonneg_left h6 hα.le) h5 (by positivity) (by positivity)
    have h8 : w * p' ≤ w * (p + R) := mul_le_mul_of_nonneg_left (by linarith) hw0.le
    rw [mul_add] at h8
    linarith

/-- What is known about operator and objective as long as the run has not stopped. -/
def QNGood (G : Geo X E) (cot : X → E → E → E) (k : QNKind) (c : Cautious) (H0 : E →ₗ[ℝ] E) (ub : E) (x0 : X) (w P1 : ℝ) (p : Past X) : Prop :=
  ∃ x u q H B, p = (x, u) :: q ∧ qnMem G cot k c H0 ‖G.grad x0‖ p = some H ∧ InvPair H B ∧ G.f x + w * pot H B ≤ G.f x0 + w * P1 ∧ G.f x ≤ G.f x0 ∧
    ∀ x1 v r, q = (x1, v) :: r → ⟪G.grad x1, qnDirection G cot k c H0 ‖G.grad x0‖ ub q⟫ ≠ 0

section good

variable {G : Geo X E} {cot : X → E → E → E} {k : QNKind} {c : Cautious} {H0 B0 : E →ₗ[ℝ] E} {ub : E} {x0 : X} {Ly m0 P1 thr α lo κ fmin : ℝ} (S : QNSetting G cot k c H0 B0 Ly m0 P1 thr)
include S

theorem QNSetting.weight_pos (hα : 0 < α) (hlo : 0 < lo) (hκ : 0 < κ) : 0 < qnWeight c Ly thr α lo κ := by
  have h1 : 0 < qnR c Ly thr := lt_of_lt_of_le one_pos (le_max_right _ _)
  have h2 := S.thrpos
  have h3 : 0 < min lo (κ * Real.exp (-qnR c Ly thr)) := lt_min hlo (by positivity)
  unfold qnWeight; positivity

theorem QNSetting.P1_nonneg : 0 ≤ P1 := S.inv0.pot_nonneg.trans S.pot0

theorem QNSetting.good0 {w : ℝ} (hw : 0 < w) : QNGood G cot k c H0 ub x0 w P1 [(x0, 0)] :=
  ⟨x0, 0, [], H0, B0, rfl, rfl, S.inv0, by have := mul_le_mul_of_nonneg_left S.pot0 hw.le; linarith, le_rfl, by intro _ _ _ e; cases e⟩

theorem QNSetting.dir_good (hfmin : ∀ x, fmin ≤ G.f x) (hα : 0 < α) (hlo : 0 < lo) (hκ : 0 < κ) {x : X} {t : ℝ} {p : Past X} (h : QNGood G cot k c H0 ub x0 (qnWeight c Ly thr α lo κ) P1 ((x, t) :: p)) :
    ∃ H B, qnMem G cot k c H0 ‖G.grad x0‖ ((x, t) :: p) = some H ∧ InvPair H B ∧ qnDirection G cot k c H0 ‖G.grad x0‖ ub ((x, t) :: p) = qnDir H (G.grad x) ∧
      G.f x + qnWeight c Ly thr α lo κ * pot H B ≤ G.f x0 + qnWeight c Ly thr α lo κ * P1 ∧ G.f x ≤ G.f x0 ∧
      ⟪G.grad x, qnDir H (G.grad x)⟫ ≤ -(1 / (2 * qnPot c Ly P1 thr α lo κ (G.f x0 - fmin))) * ‖G.grad x‖ ^ 2 ∧
      ‖qnDir H (G.grad x)‖ ≤ Real.exp (qnPot c Ly P1 thr α lo κ (G.f x0 - fmin)) * ‖G.grad x‖ ∧ 0 < qnPot c Ly P1 thr α lo κ (G.f x0 - fmin) := by
  obtain ⟨x', u, q, H, B, e, e1, e2, e3, e4, -⟩ := h
  simp only [List.cons.injEq, Prod.mk.injEq] at e
  obtain ⟨⟨rfl, rfl⟩, rfl⟩ := e
  have hw := S.weight_pos hα hlo hκ
  set w := qnWeight c Ly thr α lo κ with hwdef
  have hP1 := S.P1_nonneg
  have hD : 0 ≤ G.f x0 - fmin := sub_nonneg.mpr (hfmin x0)
  have hΦ0 : 0 < qnPot c Ly P1 thr α lo κ (G.f x0 - fmin) := by
    have : 0 ≤ (G.f x0 - fmin) / w := div_nonneg hD hw.le
    unfold qnPot; rw [← hwdef]; linarith
  have hpot : pot H B ≤ qnPot c Ly P1 thr α lo κ (G.f x0 - fmin) := by
    have h1 := hfmin x
    have h2 : pot H B ≤ (G.f x0 - fmin) / w + P1 := by
      have : pot H B - P1 ≤ (G.f x0 - fmin) / w := by rw [le_div_iff₀ hw]; linarith
      linarith
    unfold qnPot; rw [← hwdef]; linarith
  have hdir := qn_dir e2 hΦ0 hpot (G.grad x)
  exact ⟨H, B, e1, e2, by simp only [qnDirection, e1], e3, e4, hdir.1, hdir.2, hΦ0⟩

/-- A step that decreases the objective enough and is not too short keeps the bound. -/
theorem QNSetting.step_good (hfmin : ∀ x, fmin ≤ G.f x) (hα : 0 < α) (hlo : 0 < lo) (hκ : 0 < κ) {x : X} {u t : ℝ} {p : Past X}
    (h : QNGood G cot k c H0 ub x0 (qnWeight c Ly thr α lo κ) P1 ((x, u) :: p)) (hg : thr ≤ ‖G.grad x‖) (ht0 : 0 < t)
    (ht : min lo (κ * (-⟪G.grad x, qnDirection G cot k c H0 ‖G.grad x0‖ ub ((x, u) :: p)⟫ / ‖qnDirection G cot k c H0 ‖G.grad x0‖ ub ((x, u) :: p)‖ ^ 2)) ≤ t)
    (hdec : G.f (G.retr x (t • qnDirection G cot k c H0 ‖G.grad x0‖ ub ((x, u) :: p))) ≤ G.f x + α * t * ⟪G.grad x, qnDirection G cot k c H0 ‖G.grad x0‖ ub ((x, u) :: p)⟫) :
    QNGood G cot k c H0 ub x0 (qnWeight c Ly thr α lo κ) P1 ((G.retr x (t • qnDirection G cot k c H0 ‖G.grad x0‖ ub ((x, u) :: p)), t) :: (x, u) :: p) := by
  obtain ⟨H, B, e1, e2, e3, e4, e5, e6, e7, e8⟩ := S.dir_good hfmin hα hlo hκ h
  have hw := S.weight_pos hα hlo hκ
  rw [e3] at ht hdec ⊢
  have hgp : 0 < ‖G.grad x‖ := lt_of_lt_of_le S.thrpos hg
  set d := qnDir H (G.grad x) with hd
  have hσ : 0 < -⟪G.grad x, d⟫ := by
    have : 0 < 1 / (2 * qnPot c Ly P1 thr α lo κ (G.f x0 - fmin)) * ‖G.grad x‖ ^ 2 := by positivity
    linarith
  have hdn : 0 < ‖d‖ := by
    rw [norm_pos_iff]; intro h0; rw [h0, inner_zero_right, neg_zero] at hσ; exact lt_irrefl _ hσ
  obtain ⟨H', B', k1, k2, k3⟩ := qn_update S e2 hg ht0 ‖G.grad x0‖ (p.length + 1)
  have hmem : qnMem G cot k c H0 ‖G.grad x0‖ ((G.retr x (t • d), t) :: (x, u) :: p) = some H' := by
    rw [qnMem, e1]; exact k1
  have hlow : G.f (G.retr x (t • d)) ≤ G.f x := by
    have : 0 ≤ α * t * -⟪G.grad x, d⟫ := by positivity
    linarith
  refine ⟨_, _, _, H', B', rfl, hmem, k2, ?_, hlow.trans e5, ?_⟩
  · rcases k3 with k3 | k3 | k3
    · have := mul_le_mul_of_nonneg_left k3 hw.le
      linarith
    · have := mul_le_mul_of_nonneg_left k3 hw.le
      linarith
    · refine le_trans ?_ e4
      refine qn_decrease hσ S.thrpos (pow_le_pow_left₀ S.thrpos.le hg 2) (by positivity) ?_ (le_max_right _ _) hα hlo hκ ht0 ht (by linarith) k3
      have := abs_real_inner_le_norm (G.grad x) d
      have h1 : -⟪G.grad x, d⟫ ≤ ‖G.grad x‖ * ‖d‖ := (neg_le_abs _).trans this
      calc -⟪G.grad x, d⟫ * -⟪G.grad x, d⟫ ≤ (‖G.grad x‖ * ‖d‖) * (‖G.grad x‖ * ‖d‖) := mul_le_mul h1 h1 hσ.le (by positivity)
        _ = _ := by ring
  · intro x1 v r e
    simp only [List.cons.injEq, Prod.mk.injEq] at e
    obtain ⟨⟨rfl, rfl⟩, rfl⟩ := e
    rw [e3]
    intro h0
    rw [h0, neg_zero] at hσ
    exact lt_irrefl _ hσ

end good

/-! ## C114 -/

/-- Constant of the Armijo search: a shortened step is at least this times slope over squared length. -/
noncomputable def armijoKappa (P : LSParams ℝ) (L : ℝ) : ℝ := P.r1 * (2 * (1 - P.alpha) / L)

/-- Bound of `pot` in an Armijo run. -/
noncomputable def armijoPot (c : Cautious) (P : LSParams ℝ) (L Ly P1 thr lo D : ℝ) : ℝ := qnPot c Ly P1 thr P.alpha lo (armijoKappa P L) D

/-- Hypotheses of C114 for the Armijo search: problem, solver and parameters. -/
structure QNArmijo (G : Geo X E) (cot : X → E → E → E) (k : QNKind) (c : Cautious) (H0 B0 : E →ₗ[ℝ] E) (C : LSCfg) (O : Oracle X E) (ub : E) (x0 : X) (fmin L Ly m0 P1 thr lo : ℝ) : Prop
    extends QNSetting G cot k c H0 B0 Ly m0 P1 thr where
  below : ∀ x, fmin ≤ G.f x
  upper : QuadUpper G L
  Lpos : 0 < L
  lopos : 0 < lo
  dir : O.dir = qnDirection G cot k c H0 ‖G.grad x0‖ ub
  kind : C.kind = .armijo
  mono : C.run.numPre ≤ 1
  alpha : 0 < C.ls.alpha
  alpha1 : C.ls.alpha < 1
  r1 : 0 < C.ls.r1
  r11 : C.ls.r1 < 1
  r2 : C.ls.r2 < 1
  minPos : 0 < C.ls.minStep
  minSmall : C.ls.minStep ≤ C.ls.r1 * safeStep C.ls L (1 / (2 * armijoPot c C.ls L Ly P1 thr lo (G.f x0 - fmin))) (Real.exp (armijoPot c C.ls L Ly P1 thr lo (G.f x0 - fmin)))
  nocall : O.callback = none
  thresh : Threshold C ‖G.grad x0‖ thr
  acc : C.accuracy * (‖G.grad x0‖ + C.tol) ≤ thr
  tolpos : 0 < C.tol
  min0 : C.run.minIter = 0
  gap : C.run.record = true → 0 < C.run.outputGap

/-- Hypotheses of C114 for the strong Wolfe search. -/
structure QNWolfe (G : Geo X E) (cot : X → E → E → E) (k : QNKind) (c : Cautious) (H0 B0 : E →ₗ[ℝ] E) (C : LSCfg) (O : Oracle X E) (ub : E) (x0 : X) (fmin L Ly m0 P1 thr : ℝ) : Prop
    extends QNSetting G cot k c H0 B0 Ly m0 P1 thr where
  below : ∀ x, fmin ≤ G.f x
  ray : RayLipschitz G L
  Lpos : 0 < L
  dir : O.dir = qnDirection G cot k c H0 ‖G.grad x0‖ ub
  init : ∀ p, 0 < O.init p
  kind : C.kind = .strongWolfe
  alpha : 0 < C.ls.alpha
  beta : C.ls.beta < 1
  r1 : 0 < C.ls.r1
  r12 : C.ls.r1 ≤ C.ls.r2
  r2 : C.ls.r2 < 1
  maxPos : 0 < C.ls.maxStep
  nocall : O.callback = none
  thresh : Threshold C ‖G.grad x0‖ thr
  acc : C.accuracy * (‖G.grad x0‖ + C.tol) ≤ thr
  tolpos : 0 < C.tol
  min0 : C.run.minIter = 0
  gap : C.run.record = true → 0 < C.run.outputGap

section runs

variable {G : Geo X E} {cot : X → E → E → E} {k : QNKind} {c : Cautious} {H0 B0 : E →ₗ[ℝ] E} {C : LSCfg} {O : Oracle X E} {ub : E} {x0 : X} {fmin L Ly m0 P1 thr lo : ℝ}

theorem QNArmijo.run (S : QNArmijo G cot k c H0 B0 C O ub x0 fmin L Ly m0 P1 thr lo) {Φ : ℝ} (hΦ : Φ = armijoPot c C.ls L Ly P1 thr lo (G.f x0 - fmin))
    (hinit : ∀ x t past, QNGood G cot k c H0 ub x0 (qnWeight c Ly thr C.ls.alpha lo (armijoKappa C.ls L)) P1 ((x, t) :: past) → thr ≤ ‖G.grad x‖ → lo ≤ O.init ((x, t) :: past))
    (hN : G.f x0 - fmin < C.run.maxIter * gain C.ls L (1 / (2 * Φ)) (Real.exp Φ) lo thr) :
    ∃ s, lsRun G.land C O x0 (C.run.maxIter + 1) = .finished s ∧ s.rs.ok = true ∧ s.rs.f1 = G.f s.x ∧
      s.rs.iter * gain C.ls L (1 / (2 * Φ)) (Real.exp Φ) lo thr ≤ G.f x0 - G.f s.x ∧
      (O.timeUp s.rs.iter = true ∨ ‖G.grad s.x‖ < thr) ∧ (qnMem G cot k c H0 ‖G.grad x0‖ s.past).isSome := by
  have hκ : 0 < armijoKappa C.ls L := by
    have h1 := S.r1; have h2 : 0 < 1 - C.ls.alpha := sub_pos.mpr S.alpha1; have h3 := S.Lpos
    unfold armijoKappa; positivity
  have S0 := S.toQNSetting
  have hw := S0.weight_pos S.alpha S.lopos hκ
  subst hΦ
  have hΦ0 : 0 < armijoPot c C.ls L Ly P1 thr lo (G.f x0 - fmin) := by
    obtain ⟨-, -, -, -, -, -, -, -, -, h⟩ := S0.dir_good (ub := ub) S.below S.alpha S.lopos hκ (S0.good0 (x0 := x0) hw)
    exact h
  set Φ := armijoPot c C.ls L Ly P1 thr lo (G.f x0 - fmin) with hΦ
  have R : ReachSetting G.land C O (fun _ d => ‖d‖) (QNGood G cot k c H0 ub x0 (qnWeight c Ly thr C.ls.alpha lo (armijoKappa C.ls L)) P1) x0 fmin L (1 / (2 * Φ)) (Real.exp Φ) lo thr :=
    { below := S.below, upper := land_upper S.upper, init := hinit, good0 := S0.good0 hw
      dirs := by
        intro x t past h hg
        obtain ⟨H, B, -, -, e3, -, -, e6, e7, -⟩ := S0.dir_good S.below S.alpha S.lopos hκ h
        rw [S.dir, e3]
        exact ⟨e6, e7, norm_nonneg _⟩
      goodS := by
        intro x u past t h hg ht _ hδ hdec
        have hd := hdec S.mono
        rw [S.dir] at hd ⊢
        have hδ' := hδ (2 * (1 - C.ls.alpha) / L * (-⟪G.grad x, O.dir ((x, u) :: past)⟫ / ‖O.dir ((x, u) :: past)‖ ^ 2)) (by
          intro r hr hr2
          have hup := land_upper S.upper x (O.dir ((x, u) :: past)) r hr.le
          refine hup.trans ?_
          show _ + r * ⟪G.grad x, O.dir ((x, u) :: past)⟫ + L / 2 * (r * ‖O.dir ((x, u) :: past)‖) ^ 2 ≤ _ + C.ls.alpha * r * ⟪G.grad x, O.dir ((x, u) :: past)⟫
          set dd := O.dir ((x, u) :: past) with hdd
          rcases (norm_nonneg dd).eq_or_lt with h0 | h0
          · have : dd = 0 := norm_eq_zero.mp h0.symm
            rw [this]; simp
          · have hL := S.Lpos
            have h1 : L / 2 * (r * ‖dd‖) ^ 2 ≤ r * ((1 - C.ls.alpha) * -⟪G.grad x, dd⟫) := by
              have h2 := mul_le_mul_of_nonneg_left hr2 (by positivity : 0 ≤ L / 2 * r * ‖dd‖ ^ 2)
              have h3 : L / 2 * r * ‖dd‖ ^ 2 * (2 * (1 - C.ls.alpha) / L * (-⟪G.grad x, dd⟫ / ‖dd‖ ^ 2)) = r * ((1 - C.ls.alpha) * -⟪G.grad x, dd⟫) := by field_simp
              rw [h3] at h2
              calc _ = L / 2 * r * ‖dd‖ ^ 2 * r := by ring
                _ ≤ _ := h2
            nlinarith)
        refine S0.step_good S.below S.alpha S.lopos hκ h hg ht ?_ hd
        refine le_trans (min_le_min (hinit x u past h hg) (le_of_eq ?_)) hδ'
        rw [S.dir, armijoKappa]; ring
      Lpos := S.Lpos, c1pos := by positivity, c2pos := Real.exp_pos _, kind := S.kind
      alpha := S.alpha, alpha1 := S.alpha1, r1 := S.r1, r11 := S.r11, r2 := S.r2, minPos := S.minPos, minSmall := S.minSmall, lopos := S.lopos, nocall := S.nocall
      thresh := S.thresh, thrpos := S.thrpos, acc := S.acc, tolpos := S.tolpos, g0 := norm_nonneg _, min0 := S.min0, gap := S.gap }
  have hmax : max 1 C.run.numPre = 1 := by have := S.mono; omega
  obtain ⟨s, e1, e2, e3, e4, e5, _, _, _, H, B, _, e6, -⟩ := armijo_converges_reach R (by rw [hmax, Nat.cast_one, one_mul]; exact hN)
  rw [hmax, Nat.cast_one, one_mul] at e4
  exact ⟨s, e1, e2, e3, e4, e5, by rw [e6]; rfl⟩

/-- **C114, Armijo.** A run of `RBFGS`, `RWRBFGS` or `RBroydenFamily` with the monotone Armijo search, on an objective that is bounded below, has a quadratic upper model and a Lipschitz
gradient (convexity is assumed only if the user declares it), from any starting point, any positive definite initial operator and any initial steps that are bounded below, ends by its gradient test or the time limit,
after a bounded number of iterations; every search succeeded, and no update divided by zero. -/
theorem C114_qn_armijo (S : QNArmijo G cot k c H0 B0 C O ub x0 fmin L Ly m0 P1 thr lo) (hinit : ∀ p, lo ≤ O.init p) {Φ : ℝ} (hΦ : Φ = armijoPot c C.ls L Ly P1 thr lo (G.f x0 - fmin))
    (hN : G.f x0 - fmin < C.run.maxIter * gain C.ls L (1 / (2 * Φ)) (Real.exp Φ) lo thr) :
    ∃ s, lsRun G.land C O x0 (C.run.maxIter + 1) = .finished s ∧ s.rs.ok = true ∧ s.rs.f1 = G.f s.x ∧
      s.rs.iter * gain C.ls L (1 / (2 * Φ)) (Real.exp Φ) lo thr ≤ G.f x0 - G.f s.x ∧
      (O.timeUp s.rs.iter = true ∨ ‖G.grad s.x‖ < thr) ∧ (qnMem G cot k c H0 ‖G.grad x0‖ s.past).isSome :=
  S.run hΦ (fun x t past _ _ => hinit _) hN

/-- **C114, any initial step rule.** The same with initial steps chosen by any rule of the library that produces numbers, in particular (`C114_qn_default`) the default one: the steps are bounded below by the safeguard. -/
theorem C114_qn_any_rule {init0 eps : ℝ} {cand : Past X → Ext ℝ} (S : QNArmijo G cot k c H0 B0 C O ub x0 fmin L Ly m0 P1 thr (anyFloor init0 (1 + √(2 * L * (G.f x0 - fmin))) eps)) (h0 : 0 < init0)
    (hrule : ∀ p, O.init p = ruleStep G.land O.dir init0 eps cand p)
    (hcand : ∀ x2 t x1 u q, thr ≤ ‖G.grad x2‖ → ⟪G.grad x1, O.dir ((x1, u) :: q)⟫ ≠ 0 → ∃ v, cand ((x2, t) :: (x1, u) :: q) = .fin v)
    {Φ lo : ℝ} (hlo : lo = anyFloor init0 (1 + √(2 * L * (G.f x0 - fmin))) eps) (hΦ : Φ = armijoPot c C.ls L Ly P1 thr lo (G.f x0 - fmin))
    (hN : G.f x0 - fmin < C.run.maxIter * gain C.ls L (1 / (2 * Φ)) (Real.exp Φ) lo thr) :
    ∃ s, lsRun G.land C O x0 (C.run.maxIter + 1) = .finished s ∧ s.rs.ok = true ∧ s.rs.f1 = G.f s.x ∧
      s.rs.iter * gain C.ls L (1 / (2 * Φ)) (Real.exp Φ) lo thr ≤ G.f x0 - G.f s.x ∧
      (O.timeUp s.rs.iter = true ∨ ‖G.grad s.x‖ < thr) ∧ (qnMem G cot k c H0 ‖G.grad x0‖ s.past).isSome := by
  subst hlo
  refine S.run hΦ ?_ hN
  rintro x t past ⟨x', u, q, H, B, e, -, -, -, e4, e5⟩ hg
  simp only [List.cons.injEq, Prod.mk.injEq] at e
  obtain ⟨⟨rfl, rfl⟩, rfl⟩ := e
  rw [hrule]
  have hs : ∀ x1 u q, past = (x1, u) :: q → G.land.slope x1 (O.dir ((x1, u) :: q)) ≠ 0 := by
    intro x1 v r e
    have := e5 x1 v r e
    rw [S.dir, ← e]; exact this
  exact any_floor h0 (grad_bound S.below S.upper S.Lpos x0) (lt_of_lt_of_le S.thrpos hg) e4 hs (fun x1 v r e => by subst e; exact hcand x t x1 v r hg (hs x1 v r rfl))

/-- **C114, defaults.** The default way of choosing initial steps, quadratic interpolation. -/
theorem C114_qn_default {init0 eps : ℝ} (S : QNArmijo G cot k c H0 B0 C O ub x0 fmin L Ly m0 P1 thr (anyFloor init0 (1 + √(2 * L * (G.f x0 - fmin))) eps)) (h0 : 0 < init0)
    (hrule : ∀ p, O.init p = quadIntMod G.land O.dir init0 eps p)
    {Φ lo : ℝ} (hlo : lo = anyFloor init0 (1 + √(2 * L * (G.f x0 - fmin))) eps) (hΦ : Φ = armijoPot c C.ls L Ly P1 thr lo (G.f x0 - fmin))
    (hN : G.f x0 - fmin < C.run.maxIter * gain C.ls L (1 / (2 * Φ)) (Real.exp Φ) lo thr) :
    ∃ s, lsRun G.land C O x0 (C.run.maxIter + 1) = .finished s ∧ s.rs.ok = true ∧ s.rs.f1 = G.f s.x ∧
      s.rs.iter * gain C.ls L (1 / (2 * Φ)) (Real.exp Φ) lo thr ≤ G.f x0 - G.f s.x ∧
      (O.timeUp s.rs.iter = true ∨ ‖G.grad s.x‖ < thr) ∧ (qnMem G cot k c H0 ‖G.grad x0‖ s.past).isSome := by
  refine C114_qn_any_rule S h0 hrule ?_ hlo hΦ hN
  intro x2 t x1 u q _ hs
  have hs' : ¬ G.land.slope x1 (O.dir ((x1, u) :: q)) = 0 := hs
  simp only [quadIntModCand, quadPred, if_neg hs']
  unfold capOne
  split
  · exact ⟨_, rfl⟩
  · exact ⟨_, rfl⟩

/-- **C114, strong Wolfe.** A run with the strong Wolfe search ends; unless a search failed it ends by its gradient test or the time limit. The number of iterations is bounded in either case. -/
theorem C114_qn_wolfe (S : QNWolfe G cot k c H0 B0 C O ub x0 fmin L Ly m0 P1 thr) {Φ cos : ℝ} (hΦ : Φ = qnPot c Ly P1 thr C.ls.alpha 1 ((1 - C.ls.beta) / L) (G.f x0 - fmin))
    (hcos : cos = 1 / (2 * Φ) / Real.exp Φ)
    (hN : G.f x0 - fmin < C.run.maxIter * (C.ls.alpha * (1 - C.ls.beta) / L * (cos * thr) ^ 2)) :
    ∃ s, lsRun G.land C O x0 (C.run.maxIter + 1) = .finished s ∧
      (s.rs.ok = true → s.rs.f1 = G.f s.x ∧ (O.timeUp s.rs.iter = true ∨ ‖G.grad s.x‖ < thr) ∧ (qnMem G cot k c H0 ‖G.grad x0‖ s.past).isSome) ∧
      ((s.rs.iter : ℝ) - 1) * (C.ls.alpha * (1 - C.ls.beta) / L * (cos * thr) ^ 2) ≤ G.f x0 - fmin := by
  have hκ : 0 < (1 - C.ls.beta) / L := div_pos (sub_pos.mpr S.beta) S.Lpos
  have S0 := S.toQNSetting
  have hw := S0.weight_pos S.alpha one_pos hκ
  have hΦ0 : 0 < Φ := by
    obtain ⟨-, -, -, -, -, -, -, -, -, h⟩ := S0.dir_good (ub := ub) S.below S.alpha one_pos hκ (S0.good0 (x0 := x0) hw)
    rw [hΦ]; exact h
  have R : WolfeReach G.land C O (fun _ d => ‖d‖) (QNGood G cot k c H0 ub x0 (qnWeight c Ly thr C.ls.alpha 1 ((1 - C.ls.beta) / L)) P1) x0 fmin L cos thr :=
    { below := S.below, lips := S.ray
      dirs := by
        intro x t past h hg
        have hgp : 0 < ‖G.grad x‖ := lt_of_lt_of_le S.thrpos hg
        obtain ⟨H, B, -, -, e3, -, -, e6, e7, -⟩ := S0.dir_good S.below S.alpha one_pos hκ h
        rw [← hΦ] at e6 e7
        rw [S.dir, e3]
        have hneg : ⟪G.grad x, qnDir H (G.grad x)⟫ < 0 := by
          have : 0 < 1 / (2 * Φ) * ‖G.grad x‖ ^ 2 := by positivity
          linarith
        refine ⟨e6.trans ?_, ?_⟩
        · show _ ≤ -cos * ‖G.grad x‖ * ‖qnDir H (G.grad x)‖
          have : cos * ‖G.grad x‖ * ‖qnDir H (G.grad x)‖ ≤ cos * ‖G.grad x‖ * (Real.exp Φ * ‖G.grad x‖) := mul_le_mul_of_nonneg_left e7 (by rw [hcos]; positivity)
          have e2 : cos * ‖G.grad x‖ * (Real.exp Φ * ‖G.grad x‖) = 1 / (2 * Φ) * ‖G.grad x‖ ^ 2 := by
            have := (Real.exp_pos Φ).ne'
            rw [hcos]; field_simp
          linarith
        · show 0 < ‖qnDir H (G.grad x)‖
          rw [norm_pos_iff]; intro h0; rw [h0, inner_zero_right] at hneg; exact lt_irrefl _ hneg
      init := fun x t past _ _ => S.init _
      good0 := S0.good0 hw
      goodS := by
        intro x u past t h hg ht hd hcurv
        obtain ⟨H, B, -, -, e3, -, -, e6, e7, -⟩ := S0.dir_good S.below S.alpha one_pos hκ h
        rw [← hΦ] at e6
        rw [S.dir] at hd hcurv ⊢
        refine S0.step_good S.below S.alpha one_pos hκ h hg ht ?_ hd
        refine (min_le_right _ _).trans ?_
        rw [e3] at hcurv ⊢
        set d := qnDir H (G.grad x) with hdd
        have hgp : 0 < ‖G.grad x‖ := lt_of_lt_of_le S.thrpos hg
        have hneg : ⟪G.grad x, d⟫ < 0 := by
          have : 0 < 1 / (2 * Φ) * ‖G.grad x‖ ^ 2 := by positivity
          linarith
        have hdn : 0 < ‖d‖ := by
          rw [norm_pos_iff]; intro h0; rw [h0, inner_zero_right] at hneg; exact lt_irrefl _ hneg
        have h1 := S.ray x d t ht.le
        have h2 : C.ls.beta * ⟪G.grad x, d⟫ ≤ ⟪G.grad (G.retr x (t • d)), G.dretr x (t • d) d⟫ := by
          have h3 : |⟪G.grad (G.retr x (t • d)), G.dretr x (t • d) d⟫| ≤ -C.ls.beta * ⟪G.grad x, d⟫ := hcurv
          have := neg_le_of_abs_le h3
          linarith
        have hL := S.Lpos
        rw [div_mul_div_comm, div_le_iff₀ (by positivity)]
        nlinarith
      Lpos := S.Lpos, cpos := by rw [hcos]; positivity, kind := S.kind, alpha := S.alpha, beta := S.beta, r1 := S.r1, r12 := S.r12, r2 := S.r2, maxPos := S.maxPos, nocall := S.nocall
      thresh := S.thresh, thrpos := S.thrpos, acc := S.acc, tolpos := S.tolpos, g0 := norm_nonneg _, min0 := S.min0, gap := S.gap }
  obtain ⟨s, e1, e2, e3⟩ := wolfe_run_reach R hN
  refine ⟨s, e1, fun hok => ?_, e3⟩
  obtain ⟨k1, k2, -, -, _, _, _, H, B, _, k3, -⟩ := e2 hok
  exact ⟨k1, k2, by rw [k3]; rfl⟩

end runs

/-! ### A concrete problem: the three solvers on `2x²`, declared convex -/

noncomputable def quadMin (lo : ℝ) : ℝ :=
  (quadCfg 0 0).ls.r1 * safeStep (quadCfg 0 0).ls 4 (1 / (2 * armijoPot quadLR.cau (quadCfg 0 0).ls 4 4 20 (4 / 10 ^ 6) lo (quadGeo.f 1 - 0)))
    (Real.exp (armijoPot quadLR.cau (quadCfg 0 0).ls 4 4 20 (4 / 10 ^ 6) lo (quadGeo.f 1 - 0)))

noncomputable def quadQNCfg (n : ℕ) (lo : ℝ) : LSCfg := { quadCfg 0 n with ls := { (quadCfg 0 n).ls with minStep := quadMin lo } }

noncomputable def quadQNOracle (k : QNKind) (init : Past ℝ → ℝ) : Oracle ℝ ℝ :=
  { quadOracle 1 with dir := qnDirection quadGeo (fun _ _ v => v) k quadLR.cau ((1 : ℝ) • LinearMap.id) ‖quadGeo.grad 1‖ 0, init := init }

theorem quad_qn (k : QNKind) : QNSetting quadGeo (fun _ _ v => v) k quadLR.cau ((1 : ℝ) • LinearMap.id) ((1 / (1 : ℝ)) • LinearMap.id) 4 4 20 (4 / 10 ^ 6) := by
  have hg : ∀ x η, gradChange quadGeo (fun _ _ v => v) k x η = 4 * η := by
    intro x η
    cases k <;> simp [gradChange, quadGeo] <;> ring
  have hs : ∀ x η, stepSeen quadGeo k x η = η := by intro x η; cases k <;> rfl
  have hc : curv ⟨quadLR.cau, true, 0⟩ (4 / 10 ^ 6) = 1 := by norm_num [curv, quadLR]
  exact
  { lip := fun x η => by rw [hg, norm_mul]; norm_num
    conv := fun _ x η => by rw [hg, hs, RCLike.inner_apply, Real.norm_eq_abs, sq_abs, conj_trivial]; exact le_of_eq (by ring)
    inv0 := invPair_scaled one_pos
    pot0 := by rw [pot_scaled one_pos, Module.finrank_self, Real.log_one]; norm_num
    potc := fun _ => by
      rw [hc, Module.finrank_self, Real.log_one]
      have := Real.log_nonneg (show (1 : ℝ) ≤ 4 by norm_num)
      have h2 : max ((4 : ℝ) ^ 2 / 1 - 0) 1 = 16 := by norm_num
      rw [h2]; norm_num; linarith
    Lypos := by norm_num, m0pos := by norm_num, nu := by norm_num [quadLR], mu := by norm_num [quadLR], thrpos := by norm_num }

theorem quad_pot_pos {lo : ℝ} (hlo : 0 < lo) : 0 < armijoPot quadLR.cau (quadCfg 0 0).ls 4 4 20 (4 / 10 ^ 6) lo (quadGeo.f 1 - 0) := by
  have hw := (quad_qn .rbfgs).weight_pos (α := (quadCfg 0 0).ls.alpha) (κ := armijoKappa (quadCfg 0 0).ls 4) (by norm_num [quadCfg]) hlo (by norm_num [quadCfg, armijoKappa])
  have : 0 ≤ (quadGeo.f 1 - 0) / qnWeight quadLR.cau 4 (4 / 10 ^ 6) (quadCfg 0 0).ls.alpha lo (armijoKappa (quadCfg 0 0).ls 4) := div_nonneg (by norm_num [quadGeo]) hw.le
  unfold armijoPot qnPot
  linarith

theorem quad_safe_pos {lo : ℝ} (hlo : 0 < lo) : 0 < quadMin lo := by
  have h := quad_pot_pos hlo
  have h2 : 0 < 1 - (quadCfg 0 0).ls.alpha := by norm_num [quadCfg]
  have h3 : 0 < (quadCfg 0 0).ls.r1 := by norm_num [quadCfg]
  unfold quadMin safeStep; positivity

theorem quad_qnArmijo (k : QNKind) (init : Past ℝ → ℝ) (n : ℕ) {lo : ℝ} (hlo : 0 < lo) :
    QNArmijo quadGeo (fun _ _ v => v) k quadLR.cau ((1 : ℝ) • LinearMap.id) ((1 / (1 : ℝ)) • LinearMap.id) (quadQNCfg n lo) (quadQNOracle k init) 0 1 0 4 4 4 20 (4 / 10 ^ 6) lo where
  toQNSetting := quad_qn k
  below x := by simp only [quadGeo]; positivity
  upper := (quad_lrArmijo init n).upper
  Lpos := by norm_num
  lopos := hlo
  dir := rfl
  kind := rfl
  mono := le_rfl
  alpha := by norm_num [quadCfg, quadQNCfg]
  alpha1 := by norm_num [quadCfg, quadQNCfg]
  r1 := by norm_num [quadCfg, quadQNCfg]
  r11 := by norm_num [quadCfg, quadQNCfg]
  r2 := by norm_num [quadCfg, quadQNCfg]
  minPos := quad_safe_pos hlo
  minSmall := le_of_eq rfl
  nocall := rfl
  thresh := Or.inr ⟨rfl, by norm_num [quadGeo], by norm_num [quadGeo, quadCfg, quadQNCfg]⟩
  acc := by simp only [quadCfg, quadQNCfg, zero_mul]; positivity
  tolpos := by norm_num [quadCfg, quadQNCfg]
  min0 := rfl
  gap h := by simp [quadCfg, quadQNCfg] at h

/-- C114 applied with the default initial steps. -/
example (k : QNKind) : ∃ n lo init s, lsRun quadGeo.land (quadQNCfg n lo) (quadQNOracle k init) 1 (n + 1) = .finished s ∧ ‖quadGeo.grad s.x‖ < 4 / 10 ^ 6 := by
  set init := quadIntMod quadGeo.land (qnDirection quadGeo (fun _ _ v => v) k quadLR.cau ((1 : ℝ) • LinearMap.id) ‖quadGeo.grad 1‖ 0) 1 (1 / 10 ^ 16) with hi
  set lo := anyFloor 1 (1 + √(2 * 4 * (quadGeo.f 1 - 0))) (1 / 10 ^ 16) with hlo
  have h6 : 0 < lo := lt_min one_pos (lt_min (by positivity) (by positivity))
  set Φ := armijoPot quadLR.cau (quadCfg 0 0).ls 4 4 20 (4 / 10 ^ 6) lo (quadGeo.f 1 - 0) with hΦ
  have hΦ0 : 0 < Φ := quad_pot_pos h6
  have hg : 0 < gain (quadCfg 0 0).ls 4 (1 / (2 * Φ)) (Real.exp Φ) lo (4 / 10 ^ 6) := by
    have h3 : 0 < (quadCfg 0 0).ls.r1 * safeStep (quadCfg 0 0).ls 4 (1 / (2 * Φ)) (Real.exp Φ) := quad_safe_pos h6
    have h4 : 0 < (quadCfg 0 0).ls.alpha := by norm_num [quadCfg]
    have h7 := lt_min h6 h3
    unfold gain; positivity
  obtain ⟨n, hn⟩ := exists_nat_gt ((quadGeo.f 1 - 0) / gain (quadCfg 0 0).ls 4 (1 / (2 * Φ)) (Real.exp Φ) lo (4 / 10 ^ 6))
  rw [div_lt_iff₀ hg] at hn
  obtain ⟨s, e, _, _, _, h, _⟩ := C114_qn_default (quad_qnArmijo k init n h6) (init0 := 1) (eps := 1 / 10 ^ 16) one_pos (fun p => rfl) hlo hΦ hn
  refine ⟨n, lo, init, s, e, ?_⟩
  rcases h with h | h
  · simp [quadQNOracle, quadOracle] at h
  · exact h

end Verif.Solver
