import Verif.Solver.LRRun
import Verif.Props.LBFGS
import Verif.Props.Zoutendijk
import Verif.Props.InitStep

/-!
# C112: runs of LRBFGS reach the requested gradient norm
-/

set_option linter.unusedSectionVars false
set_option linter.unusedVariables false

namespace Verif.Solver

open scoped RealInnerProductSpace Classical

open Verif.QN

variable {X E : Type} [NormedAddCommGroup E] [InnerProductSpace ℝ E]

/-! ## Specification -/

/-- The objective along the retraction lies below its linear model plus a quadratic term. -/
def QuadUpper (G : Geo X E) (L : ℝ) : Prop := ∀ x η, G.f (G.retr x η) ≤ G.f x + ⟪G.grad x, η⟫ + L / 2 * ‖η‖ ^ 2

/-- The gradient is Lipschitz with respect to retraction and transport (including the factor `Beta`). -/
def GradLipschitz (G : Geo X E) (L : ℝ) : Prop := ∀ x η, ‖(1 / G.beta x η) • G.grad (G.retr x η) - G.T x η (G.grad x)‖ ≤ L * ‖η‖

/-- The slope along a ray of the retraction grows at most linearly. -/
def RayLipschitz (G : Geo X E) (L : ℝ) : Prop :=
  ∀ x d t, 0 ≤ t → ⟪G.grad (G.retr x (t • d)), G.dretr x (t • d) d⟫ ≤ ⟪G.grad x, d⟫ + L * t * ‖d‖ ^ 2

/-- The preconditioner is positive and bounded. -/
def PrecondBounds (G : Geo X E) (p1 p2 : ℝ) : Prop := ∀ x u, p1 * ‖u‖ ^ 2 ≤ ⟪G.P x u, u⟫ ∧ ‖G.P x u‖ ≤ p2 * ‖u‖

/-- Constants that bound the operator of LRBFGS with `n` pairs, from below and from above: `m` is a lower bound of `<s,y>/<s,s>`, `Ly` of `|y|/|s|`. -/
noncomputable def lrLo (m Ly p1 p2 : ℝ) : ℕ → ℝ
  | 0 => min 1 (m / (p2 * Ly ^ 2)) * p1
  | n + 1 => min (lrLo m Ly p1 p2 n / 2) (m / (2 * Ly ^ 2))

noncomputable def lrHi (m Ly p1 p2 : ℝ) : ℕ → ℝ
  | 0 => max 1 (1 / (p1 * m)) * p2
  | n + 1 => (1 + Ly / m) ^ 2 * lrHi m Ly p1 p2 n + 1 / m

/-! ## Bounds of the operator -/

/-- The pairs collected by cautious updates away from critical points. -/
structure PairOK (m Ly : ℝ) (p : Pair E) : Prop where
  rho : 0 < p.rho
  inv : p.rho * ⟪p.s, p.y⟫ = 1
  curv : m * ‖p.s‖ ^ 2 ≤ ⟪p.s, p.y⟫
  lip : ‖p.y‖ ≤ Ly * ‖p.s‖

theorem PairOK.move {m Ly : ℝ} {p : Pair E} (h : PairOK m Ly p) (T : E ≃ₗᵢ[ℝ] E) : PairOK m Ly (p.move T) where
  rho := h.rho
  inv := by
    show p.rho * ⟪T p.s, T p.y⟫ = 1
    rw [T.inner_map_map]; exact h.inv
  curv := by
    show m * ‖T p.s‖ ^ 2 ≤ ⟪T p.s, T p.y⟫
    rw [T.inner_map_map, T.norm_map]; exact h.curv
  lip := by
    show ‖T p.y‖ ≤ Ly * ‖T p.s‖
    rw [T.norm_map, T.norm_map]; exact h.lip

theorem PairOK.ss {m Ly : ℝ} (hm : 0 < m) {p : Pair E} (h : PairOK m Ly p) : p.rho * ‖p.s‖ ^ 2 ≤ 1 / m := by
  rw [le_div_iff₀ hm]
  have := mul_le_mul_of_nonneg_left h.curv h.rho.le
  rw [h.inv] at this
  linarith

theorem PairOK.sy {m Ly : ℝ} (hm : 0 < m) (hL : 0 < Ly) {p : Pair E} (h : PairOK m Ly p) : p.rho * ‖p.s‖ * ‖p.y‖ ≤ Ly / m := by
  have h1 := h.ss hm
  have h2 : p.rho * ‖p.s‖ * ‖p.y‖ ≤ p.rho * ‖p.s‖ * (Ly * ‖p.s‖) := mul_le_mul_of_nonneg_left h.lip (mul_nonneg h.rho.le (norm_nonneg _))
  have h3 : p.rho * ‖p.s‖ * (Ly * ‖p.s‖) = Ly * (p.rho * ‖p.s‖ ^ 2) := by ring
  have h4 := mul_le_mul_of_nonneg_left h1 hL.le
  rw [mul_one_div] at h4
  linarith

theorem PairOK.yy {m Ly : ℝ} (hm : 0 < m) (hL : 0 < Ly) {p : Pair E} (h : PairOK m Ly p) : p.rho * ‖p.y‖ ^ 2 ≤ Ly ^ 2 / m := by
  have h1 := h.ss hm
  have h2 : ‖p.y‖ ^ 2 ≤ (Ly * ‖p.s‖) ^ 2 := pow_le_pow_left₀ (norm_nonneg _) h.lip 2
  have h3 := mul_le_mul_of_nonneg_left h2 h.rho.le
  have h4 : p.rho * (Ly * ‖p.s‖) ^ 2 = Ly ^ 2 * (p.rho * ‖p.s‖ ^ 2) := by ring
  have h5 := mul_le_mul_of_nonneg_left h1 (sq_nonneg Ly)
  rw [mul_one_div] at h5
  linarith

theorem bfgsFun_inner (H : E → E) (p : Pair E) (v : E) :
    ⟪bfgsFun H p v, v⟫ = ⟪H (v - (p.rho * ⟪p.s, v⟫) • p.y), v - (p.rho * ⟪p.s, v⟫) • p.y⟫ + p.rho * ⟪p.s, v⟫ ^ 2 := by
  set w := v - (p.rho * ⟪p.s, v⟫) • p.y with hw
  simp only [bfgsFun, ← hw]
  rw [inner_add_left, inner_sub_left, inner_smul_left, inner_smul_left]
  have : ⟪H w, w⟫ = ⟪H w, v⟫ - p.rho * ⟪p.s, v⟫ * ⟪p.y, H w⟫ := by
    conv_lhs => rw [show ⟪H w, w⟫ = ⟪H w, v - (p.rho * ⟪p.s, v⟫) • p.y⟫ from by rw [← hw]]
    rw [inner_sub_right, inner_smul_right, real_inner_comm p.y]
  rw [this]
  simp only [conj_trivial]
  ring

theorem bfgs_lower {m Ly a : ℝ} (hm : 0 < m) (hL : 0 < Ly) (ha : 0 < a) {H : E → E} {p : Pair E} (hp : PairOK m Ly p)
    (h : ∀ v, a * ‖v‖ ^ 2 ≤ ⟪H v, v⟫) (v : E) : min (a / 2) (m / (2 * Ly ^ 2)) * ‖v‖ ^ 2 ≤ ⟪bfgsFun H p v, v⟫ := by
  rw [bfgsFun_inner]
  set t := ⟪p.s, v⟫ with ht
  set w := v - (p.rho * t) • p.y with hw
  have h1 := h w
  have hv : v = w + (p.rho * t) • p.y := by rw [hw]; abel
  have h2 : ‖v‖ ^ 2 ≤ 2 * ‖w‖ ^ 2 + 2 * (p.rho * ‖p.y‖ ^ 2) * (p.rho * t ^ 2) := by
    have e1 : ‖v‖ ≤ ‖w‖ + ‖(p.rho * t) • p.y‖ := by
      conv_lhs => rw [hv]
      exact norm_add_le _ _
    have e2 : ‖v‖ ^ 2 ≤ (‖w‖ + ‖(p.rho * t) • p.y‖) ^ 2 := pow_le_pow_left₀ (norm_nonneg _) e1 2
    have e3 : ‖(p.rho * t) • p.y‖ ^ 2 = (p.rho * ‖p.y‖ ^ 2) * (p.rho * t ^ 2) := by
      rw [norm_smul, mul_pow, Real.norm_eq_abs, sq_abs]; ring
    nlinarith [sq_nonneg (‖w‖ - ‖(p.rho * t) • p.y‖)]
  have h3 : (p.rho * ‖p.y‖ ^ 2) * (p.rho * t ^ 2) ≤ Ly ^ 2 / m * (p.rho * t ^ 2) :=
    mul_le_mul_of_nonneg_right (hp.yy hm hL) (mul_nonneg hp.rho.le (sq_nonneg _))
  set k := min (a / 2) (m / (2 * Ly ^ 2)) with hk
  have hk0 : 0 < k := lt_min (by positivity) (by positivity)
  have hk1 : k ≤ a / 2 := min_le_left _ _
  have hk2 : k ≤ m / (2 * Ly ^ 2) := min_le_right _ _
  have h4 : k * (2 * (Ly ^ 2 / m)) ≤ 1 := by
    calc k * (2 * (Ly ^ 2 / m)) ≤ m / (2 * Ly ^ 2) * (2 * (Ly ^ 2 / m)) := mul_le_mul_of_nonneg_right hk2 (by positivity)
      _ = 1 := by field_simp
  have hr : 0 ≤ p.rho * t ^ 2 := mul_nonneg hp.rho.le (sq_nonneg _)
  have h5 : k * ‖v‖ ^ 2 ≤ k * (2 * ‖w‖ ^ 2 + 2 * (Ly ^ 2 / m) * (p.rho * t ^ 2)) := by
    refine mul_le_mul_of_nonneg_left ?_ hk0.le
    linarith
  have h6 : k * (2 * ‖w‖ ^ 2) ≤ a * ‖w‖ ^ 2 := by nlinarith [sq_nonneg ‖w‖]
  have h7 := mul_le_mul_of_nonneg_right h4 hr
  have e : k * (2 * ‖w‖ ^ 2 + 2 * (Ly ^ 2 / m) * (p.rho * t ^ 2)) = k * (2 * ‖w‖ ^ 2) + k * (2 * (Ly ^ 2 / m)) * (p.rho * t ^ 2) := by ring
  linarith

theorem bfgs_upper {m Ly b : ℝ} (hm : 0 < m) (hL : 0 < Ly) (hb : 0 ≤ b) {H : E → E} {p : Pair E} (hp : PairOK m Ly p)
    (h : ∀ v, ‖H v‖ ≤ b * ‖v‖) (v : E) : ‖bfgsFun H p v‖ ≤ ((1 + Ly / m) ^ 2 * b + 1 / m) * ‖v‖ := by
  set w := v - (p.rho * ⟪p.s, v⟫) • p.y with hw
  have hsv : |⟪p.s, v⟫| ≤ ‖p.s‖ * ‖v‖ := abs_real_inner_le_norm _ _
  have hrho := hp.rho.le
  have hsy := hp.sy hm hL
  have hss := hp.ss hm
  have h1 : ‖w‖ ≤ (1 + Ly / m) * ‖v‖ := by
    have e1 : ‖w‖ ≤ ‖v‖ + ‖(p.rho * ⟪p.s, v⟫) • p.y‖ := norm_sub_le _ _
    have e2 : ‖(p.rho * ⟪p.s, v⟫) • p.y‖ ≤ Ly / m * ‖v‖ := by
      rw [norm_smul, Real.norm_eq_abs, abs_mul, abs_of_pos hp.rho]
      have : p.rho * |⟪p.s, v⟫| * ‖p.y‖ ≤ p.rho * (‖p.s‖ * ‖v‖) * ‖p.y‖ :=
        mul_le_mul_of_nonneg_right (mul_le_mul_of_nonneg_left hsv hrho) (norm_nonneg _)
      have e : p.rho * (‖p.s‖ * ‖v‖) * ‖p.y‖ = p.rho * ‖p.s‖ * ‖p.y‖ * ‖v‖ := by ring
      have := mul_le_mul_of_nonneg_right hsy (norm_nonneg v)
      linarith
    linarith
  have hq : 0 ≤ Ly / m := by positivity
  have h2 : ‖H w‖ ≤ b * ((1 + Ly / m) * ‖v‖) := (h w).trans (mul_le_mul_of_nonneg_left h1 hb)
  have h3 : ‖H w - (p.rho * ⟪p.y, H w⟫) • p.s‖ ≤ (1 + Ly / m) * ‖H w‖ := by
    have e1 : ‖H w - (p.rho * ⟪p.y, H w⟫) • p.s‖ ≤ ‖H w‖ + ‖(p.rho * ⟪p.y, H w⟫) • p.s‖ := norm_sub_le _ _
    have e2 : ‖(p.rho * ⟪p.y, H w⟫) • p.s‖ ≤ Ly / m * ‖H w‖ := by
      rw [norm_smul, Real.norm_eq_abs, abs_mul, abs_of_pos hp.rho]
      have : p.rho * |⟪p.y, H w⟫| * ‖p.s‖ ≤ p.rho * (‖p.y‖ * ‖H w‖) * ‖p.s‖ :=
        mul_le_mul_of_nonneg_right (mul_le_mul_of_nonneg_left (abs_real_inner_le_norm _ _) hrho) (norm_nonneg _)
      have e : p.rho * (‖p.y‖ * ‖H w‖) * ‖p.s‖ = p.rho * ‖p.s‖ * ‖p.y‖ * ‖H w‖ := by ring
      have := mul_le_mul_of_nonneg_right hsy (norm_nonneg (H w))
      linarith
    linarith
  have h4 : ‖(p.rho * ⟪p.s, v⟫) • p.s‖ ≤ 1 / m * ‖v‖ := by
    rw [norm_smul, Real.norm_eq_abs, abs_mul, abs_of_pos hp.rho]
    have : p.rho * |⟪p.s, v⟫| * ‖p.s‖ ≤ p.rho * (‖p.s‖ * ‖v‖) * ‖p.s‖ :=
      mul_le_mul_of_nonneg_right (mul_le_mul_of_nonneg_left hsv hrho) (norm_nonneg _)
    have e : p.rho * (‖p.s‖ * ‖v‖) * ‖p.s‖ = p.rho * ‖p.s‖ ^ 2 * ‖v‖ := by ring
    have := mul_le_mul_of_nonneg_right hss (norm_nonneg v)
    linarith
  have h5 : ‖bfgsFun H p v‖ ≤ ‖H w - (p.rho * ⟪p.y, H w⟫) • p.s‖ + ‖(p.rho * ⟪p.s, v⟫) • p.s‖ := norm_add_le _ _
  have h6 := mul_le_mul_of_nonneg_left h2 (by positivity : 0 ≤ 1 + Ly / m)
  calc ‖bfgsFun H p v‖ ≤ (1 + Ly / m) * (b * ((1 + Ly / m) * ‖v‖)) + 1 / m * ‖v‖ := by linarith
    _ = _ := by ring

section consts

variable {m Ly p1 p2 : ℝ} (hm : 0 < m) (hL : 0 < Ly) (h1 : 0 < p1) (h2 : 0 < p2)
include hm hL h1 h2

theorem lrLo_pos (n : ℕ) : 0 < lrLo m Ly p1 p2 n := by
  induction n with
  | zero => exact mul_pos (lt_min one_pos (by positivity)) h1
  | succ n ih => exact lt_min (by positivity) (by positivity)

theorem lrHi_pos (n : ℕ) : 0 < lrHi m Ly p1 p2 n := by
  induction n with
  | zero => exact mul_pos (lt_of_lt_of_le one_pos (le_max_left _ _)) h2
  | succ n ih => unfold lrHi; positivity

theorem lrLo_anti {n k : ℕ} (h : n ≤ k) : lrLo m Ly p1 p2 k ≤ lrLo m Ly p1 p2 n := by
  induction h with
  | refl => exact le_rfl
  | @step k _ ih =>
    refine le_trans ?_ ih
    have := lrLo_pos hm hL h1 h2 k
    exact (min_le_left _ _).trans (by linarith)

theorem lrHi_mono {n k : ℕ} (h : n ≤ k) : lrHi m Ly p1 p2 n ≤ lrHi m Ly p1 p2 k := by
  induction h with
  | refl => exact le_rfl
  | @step k _ ih =>
    refine ih.trans ?_
    have := lrHi_pos hm hL h1 h2 k
    have hq : 0 ≤ Ly / m := by positivity
    have hi : 0 ≤ 1 / m := by positivity
    show lrHi m Ly p1 p2 k ≤ (1 + Ly / m) ^ 2 * lrHi m Ly p1 p2 k + 1 / m
    nlinarith [mul_nonneg hq this.le, mul_nonneg (mul_nonneg hq hq) this.le]

/-- The operator built from good pairs is bounded from below and from above. -/
theorem lr_bounds (q : List (Pair E)) (hq : ∀ p ∈ q, PairOK m Ly p) (n : ℕ) (H : E → E)
    (hlo : ∀ v, lrLo m Ly p1 p2 n * ‖v‖ ^ 2 ≤ ⟪H v, v⟫) (hhi : ∀ v, ‖H v‖ ≤ lrHi m Ly p1 p2 n * ‖v‖) (v : E) :
    lrLo m Ly p1 p2 (n + q.length) * ‖v‖ ^ 2 ≤ ⟪q.foldl bfgsFun H v, v⟫ ∧ ‖q.foldl bfgsFun H v‖ ≤ lrHi m Ly p1 p2 (n + q.length) * ‖v‖ := by
  induction q generalizing n H with
  | nil => exact ⟨hlo v, hhi v⟩
  | cons p q ih =>
    have hp := hq p (by simp)
    have := ih (fun p' h' => hq p' (by simp [h'])) (n + 1) (bfgsFun H p)
      (bfgs_lower hm hL (lrLo_pos hm hL h1 h2 n) hp hlo) (bfgs_upper hm hL (lrHi_pos hm hL h1 h2 n).le hp hhi)
    rw [List.foldl_cons, List.length_cons, show n + (q.length + 1) = n + 1 + q.length by ring]
    exact this

end consts

/-! ## The memory of a run -/

/-- Hypotheses on problem and parameters common to the two searches. -/
structure LRSetting (G : Geo X E) (c : LRCfg) (Ly p1 p2 thr : ℝ) : Prop where
  lip : GradLipschitz G Ly
  pre : PrecondBounds G p1 p2
  Lypos : 0 < Ly
  p1pos : 0 < p1
  p2pos : 0 < p2
  nu : 0 < c.cau.nu
  mu : 0 ≤ c.cau.mu
  thrpos : 0 < thr

/-- Lower bound of the curvature of stored pairs. -/
noncomputable def curv (c : LRCfg) (thr : ℝ) : ℝ := c.cau.nu * thr ^ c.cau.mu

/-- What is known about the memory as long as the run has not stopped. -/
def LRGood (G : Geo X E) (c : LRCfg) (junk : ℕ → ℝ) (ngf0 Ly p1 p2 thr : ℝ) (past : Past X) : Prop :=
  ∃ st q, lrMem G c junk ngf0 past = some st ∧ BufInv c.restart c.cap st.buf q ∧ (∀ p ∈ q, PairOK (curv c thr) Ly p) ∧
    min 1 (curv c thr / (p2 * Ly ^ 2)) ≤ st.gamma ∧ st.gamma ≤ max 1 (1 / (p1 * curv c thr))

section memory

variable {G : Geo X E} {c : LRCfg} {Ly p1 p2 thr : ℝ} (S : LRSetting G c Ly p1 p2 thr) (junk : ℕ → ℝ) (ngf0 : ℝ)
include S

theorem curv_pos : 0 < curv c thr := mul_pos S.nu (Real.rpow_pos_of_pos S.thrpos _)

theorem lr_init (x0 : X) (t : ℝ) : LRGood G c junk ngf0 Ly p1 p2 thr [(x0, t)] :=
  ⟨_, [], rfl, fresh_inv _ _, by simp, min_le_left _ _, le_max_left _ _⟩

/-- The direction is defined, gradient related and not too long. -/
theorem lr_dir {x : X} {t : ℝ} {p : Past X} (h : LRGood G c junk ngf0 Ly p1 p2 thr ((x, t) :: p)) (ub : E) :
    ∃ st d, lrMem G c junk ngf0 ((x, t) :: p) = some st ∧ lrDir G junk x st = some d ∧ lrDirection G c junk ngf0 ub ((x, t) :: p) = d ∧
      ⟪G.grad x, d⟫ ≤ -lrLo (curv c thr) Ly p1 p2 c.cap * ‖G.grad x‖ ^ 2 ∧ ‖d‖ ≤ lrHi (curv c thr) Ly p1 p2 c.cap * ‖G.grad x‖ ∧
      lrLo (curv c thr) Ly p1 p2 c.cap * ‖G.grad x‖ ≤ ‖d‖ := by
  obtain ⟨st, q, e1, e2, e3, e4, e5⟩ := h
  have hm := curv_pos S
  have hv := C25_two_loop_is_bfgs c.restart c.cap st.buf q e2 (G.P x) st.gamma junk (G.grad x)
  have hgpos : 0 < st.gamma := by
    have h1 := S.Lypos; have h2 := S.p2pos
    exact lt_of_lt_of_le (lt_min one_pos (by positivity)) e4
  have hb := lr_bounds hm S.Lypos S.p1pos S.p2pos q e3 0 (fun u => st.gamma • G.P x u)
    (by
      intro v
      rw [inner_smul_left]
      simp only [conj_trivial]
      have h1 := (S.pre x v).1
      have h2 : lrLo (curv c thr) Ly p1 p2 0 * ‖v‖ ^ 2 = min 1 (curv c thr / (p2 * Ly ^ 2)) * (p1 * ‖v‖ ^ 2) := by unfold lrLo; ring
      rw [h2]
      have h3 : 0 ≤ p1 * ‖v‖ ^ 2 := mul_nonneg S.p1pos.le (sq_nonneg _)
      calc _ ≤ st.gamma * (p1 * ‖v‖ ^ 2) := mul_le_mul_of_nonneg_right e4 h3
        _ ≤ _ := mul_le_mul_of_nonneg_left h1 hgpos.le)
    (by
      intro v
      rw [norm_smul, Real.norm_eq_abs, abs_of_pos hgpos]
      have h1 := (S.pre x v).2
      have h2 : lrHi (curv c thr) Ly p1 p2 0 * ‖v‖ = max 1 (1 / (p1 * curv c thr)) * (p2 * ‖v‖) := by unfold lrHi; ring
      rw [h2]
      have h3 : 0 ≤ p2 * ‖v‖ := mul_nonneg S.p2pos.le (norm_nonneg _)
      calc _ ≤ st.gamma * (p2 * ‖v‖) := mul_le_mul_of_nonneg_left h1 hgpos.le
        _ ≤ _ := mul_le_mul_of_nonneg_right e5 h3) (G.grad x)
  rw [Nat.zero_add] at hb
  set r := q.foldl bfgsFun (fun u => st.gamma • G.P x u) (G.grad x) with hr
  have hd : lrDir G junk x st = some ((-1 : ℝ) • r) := by rw [lrDir, hv]; rfl
  have hlo := lrLo_anti hm S.Lypos S.p1pos S.p2pos e2.len_le
  have hhi := lrHi_mono hm S.Lypos S.p1pos S.p2pos e2.len_le
  have hlow : lrLo (curv c thr) Ly p1 p2 c.cap * ‖G.grad x‖ ^ 2 ≤ ⟪r, G.grad x⟫ := (mul_le_mul_of_nonneg_right hlo (sq_nonneg _)).trans hb.1
  refine ⟨st, _, e1, hd, ?_, ?_, ?_, ?_⟩
  · simp only [lrDirection, e1, hd, Option.getD_some]
  · rw [inner_smul_right, real_inner_comm]
    linarith
  · rw [neg_one_smul, norm_neg]
    exact hb.2.trans (mul_le_mul_of_nonneg_right hhi (norm_nonneg _))
  · rw [neg_one_smul, norm_neg]
    have hcs := real_inner_le_norm r (G.grad x)
    rcases (norm_nonneg (G.grad x)).eq_or_lt with h0 | h0
    · rw [← h0, mul_zero]; exact norm_nonneg _
    · have : lrLo (curv c thr) Ly p1 p2 c.cap * ‖G.grad x‖ * ‖G.grad x‖ ≤ ‖r‖ * ‖G.grad x‖ := by
        calc _ = lrLo (curv c thr) Ly p1 p2 c.cap * ‖G.grad x‖ ^ 2 := by ring
          _ ≤ _ := hlow.trans hcs
      exact le_of_mul_le_mul_right this h0

/-- Memory and scaling stay good after a step from a point that is not yet good enough. -/
theorem lr_step {x : X} {u : ℝ} {p : Past X} (h : LRGood G c junk ngf0 Ly p1 p2 thr ((x, u) :: p)) (hg : thr ≤ ‖G.grad x‖) (ub : E) (t : ℝ) :
    LRGood G c junk ngf0 Ly p1 p2 thr ((G.retr x (t • lrDirection G c junk ngf0 ub ((x, u) :: p)), t) :: (x, u) :: p) := by
  obtain ⟨st, d, f1, f2, f3, -, -, -⟩ := lr_dir S junk ngf0 h ub
  obtain ⟨st', q, e1, e2, e3, e4, e5⟩ := h
  obtain rfl : st' = st := by rw [f1] at e1; exact (Option.some.inj e1).symm
  rw [f3]
  have hm := curv_pos S
  set x2 := G.retr x (t • d) with hx2
  set pc : Call E := { T := G.T x (t • d), eta2 := t • d, gf1 := G.grad x, gf2 := G.grad x2, beta := G.beta x (t • d), ngf2 := ‖G.grad x‖, ngf0 := ngf0, iter := p.length + 1 } with hpc
  have hmem : lrMem G c junk ngf0 ((x2, t) :: (x, u) :: p) = lrbfgsUpdate c.cau c.restart (G.P x2) pc st' := by
    rw [lrMem, f1]
    simp only [f2]
    rfl
  have hs : ‖pc.s‖ = ‖t • d‖ := (G.T x (t • d)).norm_map _
  have hlip : ‖pc.y‖ ≤ Ly * ‖pc.s‖ := by rw [hs]; exact S.lip x (t • d)
  have hcur : acceptPair c.cau pc.ngf2 pc.ngf0 ⟪pc.s, pc.s⟫ ⟪pc.s, pc.y⟫ → 0 < ‖pc.s‖ ∧ curv c thr * ‖pc.s‖ ^ 2 ≤ ⟪pc.s, pc.y⟫ := by
    rintro ⟨⟨h0, h1⟩, -⟩
    rw [real_inner_self_eq_norm_sq] at h0 h1
    have hsp : 0 < ‖pc.s‖ ^ 2 := lt_of_le_of_ne (sq_nonneg _) (Ne.symm h0)
    have hpow : thr ^ c.cau.mu ≤ ‖G.grad x‖ ^ c.cau.mu := Real.rpow_le_rpow S.thrpos.le hg S.mu
    refine ⟨by by_contra hc; rw [not_lt] at hc; have := le_antisymm hc (norm_nonneg _); rw [this] at hsp; simp at hsp, ?_⟩
    have h2 : curv c thr ≤ ⟪pc.s, pc.y⟫ / ‖pc.s‖ ^ 2 := (mul_le_mul_of_nonneg_left hpow S.nu.le).trans h1
    rwa [le_div_iff₀ hsp] at h2
  have hpair : ∀ p', storedPair c.cau pc = some p' → PairOK (curv c thr) Ly p' := by
    intro p' hp'
    unfold storedPair at hp'
    split at hp'
    · rename_i ha
      injection hp' with hp'
      obtain ⟨hs0, hc1⟩ := hcur ha
      have hpos : 0 < ⟪pc.s, pc.y⟫ := lt_of_lt_of_le (by positivity) hc1
      rw [← hp']
      exact ⟨one_div_pos.mpr hpos, by show 1 / ⟪pc.s, pc.y⟫ * ⟪pc.s, pc.y⟫ = 1; field_simp, hc1, hlip⟩
    · cases hp'
  obtain ⟨b', q', g1, g2, g3⟩ := update_inv_pred (PairOK (curv c thr) Ly) (⇑pc.T) (fun p' h' => h'.move pc.T) (storedPair c.cau pc) e2 e3 hpair
  refine ⟨⟨b', newGamma c.cau (G.P x2) pc st'.gamma⟩, q', ?_, g2, g3, ?_, ?_⟩
  · rw [hmem, lrbfgsUpdate, g1]; rfl
  · show _ ≤ newGamma c.cau (G.P x2) pc st'.gamma
    unfold newGamma
    split
    · rename_i ha
      obtain ⟨hs0, hc1⟩ := hcur ha
      have hpos : 0 < ⟪pc.s, pc.y⟫ := lt_of_lt_of_le (by positivity) hc1
      have hy : pc.y ≠ 0 := by intro h0; rw [h0, inner_zero_right] at hpos; exact lt_irrefl _ hpos
      have hyn : 0 < ‖pc.y‖ := norm_pos_iff.mpr hy
      have hP := S.pre x2 pc.y
      have hp1 := S.p1pos
      have hden : 0 < ⟪pc.y, G.P x2 pc.y⟫ := by rw [real_inner_comm]; exact lt_of_lt_of_le (by positivity) hP.1
      refine (min_le_right _ _).trans ?_
      have hp2 := S.p2pos
      have hLy := S.Lypos
      rw [div_le_div_iff₀ (by positivity) hden]
      have h1 : ⟪pc.y, G.P x2 pc.y⟫ ≤ p2 * ‖pc.y‖ ^ 2 := by
        have := real_inner_le_norm pc.y (G.P x2 pc.y)
        have := mul_le_mul_of_nonneg_left hP.2 (norm_nonneg pc.y)
        nlinarith
      have h2 : ‖pc.y‖ ^ 2 ≤ (Ly * ‖pc.s‖) ^ 2 := pow_le_pow_left₀ (norm_nonneg _) hlip 2
      calc curv c thr * ⟪pc.y, G.P x2 pc.y⟫ ≤ curv c thr * (p2 * (Ly * ‖pc.s‖) ^ 2) :=
            mul_le_mul_of_nonneg_left (h1.trans (mul_le_mul_of_nonneg_left h2 hp2.le)) hm.le
        _ = (curv c thr * ‖pc.s‖ ^ 2) * (p2 * Ly ^ 2) := by ring
        _ ≤ _ := mul_le_mul_of_nonneg_right hc1 (by positivity)
    · exact e4
  · show newGamma c.cau (G.P x2) pc st'.gamma ≤ _
    unfold newGamma
    split
    · rename_i ha
      obtain ⟨hs0, hc1⟩ := hcur ha
      have hpos : 0 < ⟪pc.s, pc.y⟫ := lt_of_lt_of_le (by positivity) hc1
      have hy : pc.y ≠ 0 := by intro h0; rw [h0, inner_zero_right] at hpos; exact lt_irrefl _ hpos
      have hyn : 0 < ‖pc.y‖ := norm_pos_iff.mpr hy
      have hP := S.pre x2 pc.y
      have hp1 := S.p1pos
      have hden : p1 * ‖pc.y‖ ^ 2 ≤ ⟪pc.y, G.P x2 pc.y⟫ := by rw [real_inner_comm]; exact hP.1
      have hden' : 0 < ⟪pc.y, G.P x2 pc.y⟫ := lt_of_lt_of_le (by positivity) hden
      refine le_trans ?_ (le_max_right _ _)
      rw [div_le_div_iff₀ hden' (by positivity), one_mul]
      have hcs := real_inner_le_norm pc.s pc.y
      have h1 : curv c thr * ‖pc.s‖ ≤ ‖pc.y‖ := by
        have : curv c thr * ‖pc.s‖ * ‖pc.s‖ ≤ ‖pc.y‖ * ‖pc.s‖ := by nlinarith
        exact le_of_mul_le_mul_right this hs0
      calc ⟪pc.s, pc.y⟫ * (p1 * curv c thr) ≤ (‖pc.s‖ * ‖pc.y‖) * (p1 * curv c thr) := mul_le_mul_of_nonneg_right hcs (by positivity)
        _ = p1 * ‖pc.y‖ * (curv c thr * ‖pc.s‖) := by ring
        _ ≤ p1 * ‖pc.y‖ * ‖pc.y‖ := mul_le_mul_of_nonneg_left h1 (by positivity)
        _ ≤ _ := by linarith [hden]
    · exact e5

end memory

/-! ## C112 -/

/-- The gradients at points not worse than the starting point are bounded. -/
theorem grad_bound {G : Geo X E} {fmin L : ℝ} (hb : ∀ x, fmin ≤ G.f x) (hu : QuadUpper G L) (hL : 0 < L) (x0 : X) :
    GradBound G.land x0 (1 + √(2 * L * (G.f x0 - fmin))) := by
  intro x hx
  show ‖G.grad x‖ ≤ _
  have h1 := hu x (-(1 / L) • G.grad x)
  have h2 := hb (G.retr x (-(1 / L) • G.grad x))
  rw [inner_smul_right, real_inner_self_eq_norm_sq, norm_smul, Real.norm_eq_abs, abs_neg, abs_of_pos (by positivity)] at h1
  have h3 : L / 2 * (1 / L * ‖G.grad x‖) ^ 2 = 1 / L * ‖G.grad x‖ ^ 2 / 2 := by field_simp
  rw [h3] at h1
  have h4 : 1 / L * ‖G.grad x‖ ^ 2 ≤ 2 * (G.f x0 - fmin) := by
    have : G.f x ≤ G.f x0 := hx
    linarith
  have h5 : ‖G.grad x‖ ^ 2 ≤ 2 * L * (G.f x0 - fmin) := by
    have := mul_le_mul_of_nonneg_left h4 hL.le
    have e : L * (1 / L * ‖G.grad x‖ ^ 2) = ‖G.grad x‖ ^ 2 := by field_simp
    linarith
  have := Real.le_sqrt_of_sq_le h5
  linarith

/-- Hypotheses of C112 for the Armijo search: problem, solver and parameters. -/
structure LRArmijo (G : Geo X E) (c : LRCfg) (C : LSCfg) (O : Oracle X E) (junk : ℕ → ℝ) (ub : E) (x0 : X) (fmin L Ly p1 p2 thr : ℝ) : Prop extends LRSetting G c Ly p1 p2 thr where
  below : ∀ x, fmin ≤ G.f x
  upper : QuadUpper G L
  Lpos : 0 < L
  dir : O.dir = lrDirection G c junk ‖G.grad x0‖ ub
  kind : C.kind = .armijo
  alpha : 0 < C.ls.alpha
  alpha1 : C.ls.alpha < 1
  r1 : 0 < C.ls.r1
  r11 : C.ls.r1 < 1
  r2 : C.ls.r2 < 1
  minPos : 0 < C.ls.minStep
  minSmall : C.ls.minStep ≤ C.ls.r1 * safeStep C.ls L (lrLo (curv c thr) Ly p1 p2 c.cap) (lrHi (curv c thr) Ly p1 p2 c.cap)
  nocall : O.callback = none
  thresh : Threshold C ‖G.grad x0‖ thr
  acc : C.accuracy * (‖G.grad x0‖ + C.tol) ≤ thr
  tolpos : 0 < C.tol
  min0 : C.run.minIter = 0
  gap : C.run.record = true → 0 < C.run.outputGap

/-- Hypotheses of C112 for the strong Wolfe search. -/
structure LRWolfe (G : Geo X E) (c : LRCfg) (C : LSCfg) (O : Oracle X E) (junk : ℕ → ℝ) (ub : E) (x0 : X) (fmin L Ly p1 p2 thr : ℝ) : Prop extends LRSetting G c Ly p1 p2 thr where
  below : ∀ x, fmin ≤ G.f x
  ray : RayLipschitz G L
  Lpos : 0 < L
  dir : O.dir = lrDirection G c junk ‖G.grad x0‖ ub
  init : ∀ p, 0 < O.init p
  kind : C.kind = .strongWolfe
  alpha : 0 < C.ls.alpha
  beta : C.ls.beta < 1
  r1 : 0 < C.ls.r1
  r12 : C.ls.r1 ≤ C.ls.r2
  r2 : C.ls.r2 < 1
  maxPos : 0 < C.ls.maxStep
  nocall : O.callback = none
  thresh : Threshold C ‖G.grad x0‖ thr
  acc : C.accuracy * (‖G.grad x0‖ + C.tol) ≤ thr
  tolpos : 0 < C.tol
  min0 : C.run.minIter = 0
  gap : C.run.record = true → 0 < C.run.outputGap

section runs

variable {G : Geo X E} {c : LRCfg} {C : LSCfg} {O : Oracle X E} {junk : ℕ → ℝ} {ub : E} {x0 : X} {fmin L Ly p1 p2 thr : ℝ}

theorem land_upper (h : QuadUpper G L) : UpperModel G.land (fun _ d => ‖d‖) L := by
  intro x d t ht
  have := h x (t • d)
  rw [inner_smul_right, norm_smul, Real.norm_eq_abs, abs_of_nonneg ht] at this
  exact this

theorem LRArmijo.dirs (S : LRArmijo G c C O junk ub x0 fmin L Ly p1 p2 thr) (x : X) (t : ℝ) (past : Past X)
    (h : LRGood G c junk ‖G.grad x0‖ Ly p1 p2 thr ((x, t) :: past)) :
    ⟪G.grad x, O.dir ((x, t) :: past)⟫ ≤ -lrLo (curv c thr) Ly p1 p2 c.cap * ‖G.grad x‖ ^ 2 ∧
      ‖O.dir ((x, t) :: past)‖ ≤ lrHi (curv c thr) Ly p1 p2 c.cap * ‖G.grad x‖ ∧ 0 ≤ ‖O.dir ((x, t) :: past)‖ := by
  obtain ⟨st, d, -, -, e, h1, h2, -⟩ := lr_dir S.toLRSetting junk ‖G.grad x0‖ h ub
  rw [S.dir, e]
  exact ⟨h1, h2, norm_nonneg _⟩

theorem LRArmijo.step (S : LRSetting G c Ly p1 p2 thr) (hd : O.dir = lrDirection G c junk ‖G.grad x0‖ ub) {x : X} {u : ℝ} {past : Past X}
    (h : LRGood G c junk ‖G.grad x0‖ Ly p1 p2 thr ((x, u) :: past)) (hg : thr ≤ ‖G.grad x‖) (t : ℝ) :
    LRGood G c junk ‖G.grad x0‖ Ly p1 p2 thr ((G.land.move x (O.dir ((x, u) :: past)) t, t) :: (x, u) :: past) := by
  rw [hd]
  exact lr_step S junk ‖G.grad x0‖ h hg ub t

/-- The setting of C99 for `LRBFGS` with initial steps that are bounded below. -/
theorem LRArmijo.reach (S : LRArmijo G c C O junk ub x0 fmin L Ly p1 p2 thr) {lo : ℝ} (hlo : 0 < lo) (hinit : ∀ p, lo ≤ O.init p) :
    ReachSetting G.land C O (fun _ d => ‖d‖) (LRGood G c junk ‖G.grad x0‖ Ly p1 p2 thr) x0 fmin L (lrLo (curv c thr) Ly p1 p2 c.cap) (lrHi (curv c thr) Ly p1 p2 c.cap) lo thr := by
  have hm := curv_pos S.toLRSetting
  exact
    { below := S.below, upper := land_upper S.upper, dirs := fun x t past h _ => S.dirs x t past h, init := fun x t past _ _ => hinit _
      good0 := lr_init S.toLRSetting junk _ x0 0, goodS := fun x u past t h hg _ _ _ _ => LRArmijo.step S.toLRSetting S.dir h hg t
      Lpos := S.Lpos, c1pos := lrLo_pos hm S.Lypos S.p1pos S.p2pos _, c2pos := lrHi_pos hm S.Lypos S.p1pos S.p2pos _, kind := S.kind
      alpha := S.alpha, alpha1 := S.alpha1, r1 := S.r1, r11 := S.r11, r2 := S.r2, minPos := S.minPos, minSmall := S.minSmall, lopos := hlo, nocall := S.nocall
      thresh := S.thresh, thrpos := S.thrpos, acc := S.acc, tolpos := S.tolpos, g0 := norm_nonneg _, min0 := S.min0, gap := S.gap }

/-- **C112, Armijo.** A run of `LRBFGS` with the Armijo search, on an objective that is bounded below, has a quadratic upper model and a Lipschitz gradient, from any starting point and with
any initial steps that are bounded below, ends by its gradient test or the time limit, after a bounded number of iterations; every search succeeded, and the memory of pairs never caused undefined behaviour. -/
theorem C112_lrbfgs_armijo (S : LRArmijo G c C O junk ub x0 fmin L Ly p1 p2 thr) {lo : ℝ} (hlo : 0 < lo) (hinit : ∀ p, lo ≤ O.init p)
    (hN : (max 1 C.run.numPre : ℕ) * (G.f x0 - fmin) < C.run.maxIter * gain C.ls L (lrLo (curv c thr) Ly p1 p2 c.cap) (lrHi (curv c thr) Ly p1 p2 c.cap) lo thr) :
    ∃ s, lsRun G.land C O x0 (C.run.maxIter + 1) = .finished s ∧ s.rs.ok = true ∧ s.rs.f1 = G.f s.x ∧
      s.rs.iter * gain C.ls L (lrLo (curv c thr) Ly p1 p2 c.cap) (lrHi (curv c thr) Ly p1 p2 c.cap) lo thr ≤ (max 1 C.run.numPre : ℕ) * (G.f x0 - G.f s.x) ∧
      (O.timeUp s.rs.iter = true ∨ ‖G.grad s.x‖ < thr) ∧ (lrMem G c junk ‖G.grad x0‖ s.past).isSome := by
  have hm := curv_pos S.toLRSetting
  have R := S.reach hlo hinit
  obtain ⟨s, e1, e2, e3, e4, e5, st, q, e6, -⟩ := armijo_converges_reach R hN
  exact ⟨s, e1, e2, e3, e4, e5, by rw [e6]; rfl⟩

/-- The setting of C113 for `LRBFGS` with its default initial steps. -/
theorem LRArmijo.steps (S : LRArmijo G c C O junk ub x0 fmin L Ly p1 p2 thr) {init0 eps : ℝ} (h0 : 0 < init0) (hrule : ∀ p, O.init p = quadIntMod G.land O.dir init0 eps p)
    (hmono : C.run.numPre ≤ 1) :
    StepSetting G.land C O (fun _ d => ‖d‖) (LRGood G c junk ‖G.grad x0‖ Ly p1 p2 thr) x0 fmin L (lrLo (curv c thr) Ly p1 p2 c.cap) (lrHi (curv c thr) Ly p1 p2 c.cap) thr
      (1 + √(2 * L * (G.f x0 - fmin))) init0 (quadIntMod G.land O.dir init0 eps) := by
  have hm := curv_pos S.toLRSetting
  exact
    { below := S.below, upper := land_upper S.upper, dirs := fun x t past h _ => S.dirs x t past h
      good0 := lr_init S.toLRSetting junk _ x0 0, goodS := fun x u past t h hg _ _ _ => LRArmijo.step S.toLRSetting S.dir h hg t
      rule := hrule, mono := hmono, init0 := h0, bound := grad_bound S.below S.upper S.Lpos x0, Gpos := by positivity
      Lpos := S.Lpos, c1pos := lrLo_pos hm S.Lypos S.p1pos S.p2pos _, c2pos := lrHi_pos hm S.Lypos S.p1pos S.p2pos _, kind := S.kind
      alpha := S.alpha, alpha1 := S.alpha1, r1 := S.r1, r11 := S.r11, r2 := S.r2, minPos := S.minPos, minSmall := S.minSmall, nocall := S.nocall
      thresh := S.thresh, thrpos := S.thrpos, acc := S.acc, tolpos := S.tolpos, g0 := norm_nonneg _, min0 := S.min0, gap := S.gap }

/-- **C112, defaults.** The same for the default way of running `LRBFGS`: Armijo search, comparison with the last value, initial steps by quadratic interpolation. No hypothesis on the steps is
needed; they are bounded below by a constant of the problem. -/
theorem C112_lrbfgs_default (S : LRArmijo G c C O junk ub x0 fmin L Ly p1 p2 thr) {init0 eps : ℝ} (h0 : 0 < init0) (hrule : ∀ p, O.init p = quadIntMod G.land O.dir init0 eps p)
    (hmono : C.run.numPre ≤ 1) {lo : ℝ}
    (hlo : lo = stepFloor C.ls init0 (1 + √(2 * L * (G.f x0 - fmin))) L (lrLo (curv c thr) Ly p1 p2 c.cap) (lrHi (curv c thr) Ly p1 p2 c.cap))
    (hN : G.f x0 - fmin < C.run.maxIter * gain C.ls L (lrLo (curv c thr) Ly p1 p2 c.cap) (lrHi (curv c thr) Ly p1 p2 c.cap) lo thr) :
    ∃ s, lsRun G.land C O x0 (C.run.maxIter + 1) = .finished s ∧ s.rs.ok = true ∧ s.rs.f1 = G.f s.x ∧
      s.rs.iter * gain C.ls L (lrLo (curv c thr) Ly p1 p2 c.cap) (lrHi (curv c thr) Ly p1 p2 c.cap) lo thr ≤ G.f x0 - G.f s.x ∧
      (O.timeUp s.rs.iter = true ∨ ‖G.grad s.x‖ < thr) ∧ (lrMem G c junk ‖G.grad x0‖ s.past).isSome ∧
      ∀ q₀ x2 t q, s.past = q₀ ++ (x2, t) :: q → q ≠ [] → lo ≤ t := by
  have hm := curv_pos S.toLRSetting
  have R := S.steps h0 hrule hmono
  subst hlo
  obtain ⟨s, e1, e2, e3, e4, e5, ⟨st, q, e6, -⟩, e7⟩ := C113_default_steps R hN
  exact ⟨s, e1, e2, e3, e4, e5, by rw [e6]; rfl, e7⟩

/-- **C112, strong Wolfe.** A run of `LRBFGS` with the strong Wolfe search ends; unless a search failed it ends by its gradient test or the time limit, and the memory of pairs never caused
undefined behaviour. The number of iterations is bounded in either case. -/
theorem C112_lrbfgs_wolfe (S : LRWolfe G c C O junk ub x0 fmin L Ly p1 p2 thr) {cos : ℝ} (hcos : cos = lrLo (curv c thr) Ly p1 p2 c.cap / lrHi (curv c thr) Ly p1 p2 c.cap)
    (hN : G.f x0 - fmin < C.run.maxIter * (C.ls.alpha * (1 - C.ls.beta) / L * (cos * thr) ^ 2)) :
    ∃ s, lsRun G.land C O x0 (C.run.maxIter + 1) = .finished s ∧
      (s.rs.ok = true → s.rs.f1 = G.f s.x ∧ (O.timeUp s.rs.iter = true ∨ ‖G.grad s.x‖ < thr) ∧ (lrMem G c junk ‖G.grad x0‖ s.past).isSome) ∧
      ((s.rs.iter : ℝ) - 1) * (C.ls.alpha * (1 - C.ls.beta) / L * (cos * thr) ^ 2) ≤ G.f x0 - fmin := by
  have hm := curv_pos S.toLRSetting
  have hlo := lrLo_pos hm S.Lypos S.p1pos S.p2pos c.cap
  have hhi := lrHi_pos hm S.Lypos S.p1pos S.p2pos c.cap
  have R : WolfeReach G.land C O (fun _ d => ‖d‖) (LRGood G c junk ‖G.grad x0‖ Ly p1 p2 thr) x0 fmin L cos thr :=
    { below := S.below, lips := S.ray
      dirs := by
        intro x t past h hg
        have hgp : 0 < ‖G.grad x‖ := lt_of_lt_of_le S.thrpos hg
        obtain ⟨st, d, -, -, e, h1, h2, h3⟩ := lr_dir S.toLRSetting junk ‖G.grad x0‖ h ub
        rw [S.dir, e]
        refine ⟨?_, lt_of_lt_of_le (by positivity) h3⟩
        refine h1.trans ?_
        show _ ≤ -cos * ‖G.grad x‖ * ‖d‖
        have : cos * ‖G.grad x‖ * ‖d‖ ≤ cos * ‖G.grad x‖ * (lrHi (curv c thr) Ly p1 p2 c.cap * ‖G.grad x‖) :=
          mul_le_mul_of_nonneg_left h2 (by rw [hcos]; positivity)
        have e2 : cos * ‖G.grad x‖ * (lrHi (curv c thr) Ly p1 p2 c.cap * ‖G.grad x‖) = lrLo (curv c thr) Ly p1 p2 c.cap * ‖G.grad x‖ ^ 2 := by rw [hcos]; field_simp
        linarith
      init := fun x t past _ _ => S.init _
      good0 := lr_init S.toLRSetting junk _ x0 0, goodS := fun x u past t h hg _ _ _ => LRArmijo.step S.toLRSetting S.dir h hg t
      Lpos := S.Lpos, cpos := by rw [hcos]; positivity, kind := S.kind, alpha := S.alpha, beta := S.beta, r1 := S.r1, r12 := S.r12, r2 := S.r2, maxPos := S.maxPos, nocall := S.nocall
      thresh := S.thresh, thrpos := S.thrpos, acc := S.acc, tolpos := S.tolpos, g0 := norm_nonneg _, min0 := S.min0, gap := S.gap }
  obtain ⟨s, e1, e2, e3⟩ := wolfe_run_reach R hN
  refine ⟨s, e1, fun hok => ?_, e3⟩
  obtain ⟨k1, k2, -, -, st, q, k3, -⟩ := e2 hok
  exact ⟨k1, k2, by rw [k3]; rfl⟩

end runs

/-! ### A concrete problem -/

/-- `2x²` on the real line. -/
noncomputable def quadGeo : Geo ℝ ℝ where
  f x := 2 * x ^ 2
  grad x := 4 * x
  retr x e := x + e
  dretr _ _ v := v
  T _ _ := LinearIsometryEquiv.refl ℝ ℝ
  beta _ _ := 1
  P _ u := u

/-- One pair, curvature test with exponent zero. -/
noncomputable def quadLR : LRCfg := ⟨⟨1, 0, 1 / 10 ^ 16, true⟩, true, 1⟩

noncomputable def quadLROracle (init : Past ℝ → ℝ) : Oracle ℝ ℝ := { quadOracle 1 with dir := lrDirection quadGeo quadLR (fun _ => 0) ‖quadGeo.grad 1‖ 0, init := init }

theorem quad_lr : LRSetting quadGeo quadLR 4 1 1 (4 / 10 ^ 6) where
  lip := by
    intro x e
    simp only [quadGeo, div_one, one_smul, LinearIsometryEquiv.coe_refl, id]
    rw [show 4 * (x + e) - 4 * x = 4 * e by ring, norm_mul]; norm_num
  pre := fun x u => by
    simp only [quadGeo, one_mul, real_inner_self_eq_norm_sq]; exact ⟨le_rfl, le_rfl⟩
  Lypos := by norm_num
  p1pos := one_pos
  p2pos := one_pos
  nu := by norm_num [quadLR]
  mu := by norm_num [quadLR]
  thrpos := by norm_num

theorem quad_curv : curv quadLR (4 / 10 ^ 6) = 1 := by norm_num [curv, quadLR]

theorem quad_lrArmijo (init : Past ℝ → ℝ) (n : ℕ) : LRArmijo quadGeo quadLR (quadCfg 0 n) (quadLROracle init) (fun _ => 0) 0 1 0 4 4 1 1 (4 / 10 ^ 6) where
  toLRSetting := quad_lr
  below x := by simp only [quadGeo]; positivity
  upper x e := by
    simp only [quadGeo, RCLike.inner_apply, Real.norm_eq_abs, sq_abs]
    apply le_of_eq
    simp
    ring
  Lpos := by norm_num
  dir := rfl
  kind := rfl
  alpha := by norm_num [quadCfg]
  alpha1 := by norm_num [quadCfg]
  r1 := by norm_num [quadCfg]
  r11 := by norm_num [quadCfg]
  r2 := by norm_num [quadCfg]
  minPos := by norm_num [quadCfg]
  minSmall := by rw [quad_curv]; norm_num [quadCfg, safeStep, lrLo, lrHi, quadLR]
  nocall := rfl
  thresh := Or.inr ⟨rfl, by norm_num [quadGeo], by norm_num [quadGeo, quadCfg]⟩
  acc := by simp only [quadCfg, zero_mul]; positivity
  tolpos := by norm_num [quadCfg]
  min0 := rfl
  gap h := by simp [quadCfg] at h

/-- C112 applied with the default initial steps. -/
example : ∃ n init s, lsRun quadGeo.land (quadCfg 0 n) (quadLROracle init) 1 (n + 1) = .finished s ∧ ‖quadGeo.grad s.x‖ < 4 / 10 ^ 6 := by
  set init := quadIntMod quadGeo.land (lrDirection quadGeo quadLR (fun _ => 0) ‖quadGeo.grad 1‖ 0) 1 (1 / 10 ^ 16) with hi
  set lo := stepFloor (quadCfg 0 0).ls 1 (1 + √(2 * 4 * (quadGeo.f 1 - 0))) 4 (lrLo (curv quadLR (4 / 10 ^ 6)) 4 1 1 quadLR.cap) (lrHi (curv quadLR (4 / 10 ^ 6)) 4 1 1 quadLR.cap) with hlo
  have hg : 0 < gain (quadCfg 0 0).ls 4 (lrLo (curv quadLR (4 / 10 ^ 6)) 4 1 1 quadLR.cap) (lrHi (curv quadLR (4 / 10 ^ 6)) 4 1 1 quadLR.cap) lo (4 / 10 ^ 6) := by
    have h1 := lrLo_pos (curv_pos quad_lr) quad_lr.Lypos quad_lr.p1pos quad_lr.p2pos quadLR.cap
    have h2 := lrHi_pos (curv_pos quad_lr) quad_lr.Lypos quad_lr.p1pos quad_lr.p2pos quadLR.cap
    have h3 : 0 < safeStep (quadCfg 0 0).ls 4 (lrLo (curv quadLR (4 / 10 ^ 6)) 4 1 1 quadLR.cap) (lrHi (curv quadLR (4 / 10 ^ 6)) 4 1 1 quadLR.cap) := by
      have : 0 < 1 - (quadCfg 0 0).ls.alpha := by norm_num [quadCfg]
      unfold safeStep; positivity
    have h4 : 0 < (quadCfg 0 0).ls.alpha := by norm_num [quadCfg]
    have h5 : 0 < (quadCfg 0 0).ls.r1 := by norm_num [quadCfg]
    have h6 : 0 < lo := lt_min (lt_min one_pos (by positivity)) (lt_min one_pos (lt_min (by positivity) (by positivity)))
    have h7 := lt_min h6 (mul_pos h5 h3)
    unfold gain; positivity
  obtain ⟨n, hn⟩ := exists_nat_gt ((quadGeo.f 1 - 0) / gain (quadCfg 0 0).ls 4 (lrLo (curv quadLR (4 / 10 ^ 6)) 4 1 1 quadLR.cap) (lrHi (curv quadLR (4 / 10 ^ 6)) 4 1 1 quadLR.cap) lo (4 / 10 ^ 6))
  rw [div_lt_iff₀ hg] at hn
  obtain ⟨s, e, _, _, _, h, _⟩ := C112_lrbfgs_default (quad_lrArmijo init n) (init0 := 1) (eps := 1 / 10 ^ 16) one_pos (fun p => rfl) (by norm_num [quadCfg]) hlo hn
  refine ⟨n, init, s, e, ?_⟩
  rcases h with h | h
  · simp [quadLROracle, quadOracle] at h
  · exact h

end Verif.Solver
