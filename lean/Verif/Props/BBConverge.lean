import Verif.Props.CGConverge
import Verif.Props.InitStep

/-!
# C117: steepest descent and conjugate gradient runs with Barzilai-Borwein steps reach the requested gradient norm
-/

set_option linter.unusedSectionVars false
set_option linter.unusedVariables false

namespace Verif.Solver

open scoped RealInnerProductSpace Classical

open Verif.Dir

variable {X E : Type} [NormedAddCommGroup E] [InnerProductSpace ℝ E]

/-! ## Specification -/

/-- The gradient changes at least and at most linearly along the steps: strong convexity and Lipschitz continuity with respect to retraction and transport. -/
structure ConvexSteps (G : Geo X E) (mu Ly : ℝ) : Prop where
  conv : ∀ x η, mu * ‖η‖ ^ 2 ≤ ⟪G.T x η η, G.grad (G.retr x η) - G.T x η (G.grad x)⟫
  lip : ∀ x η, ‖G.grad (G.retr x η) - G.T x η (G.grad x)‖ ≤ Ly * ‖η‖
  mupos : 0 < mu
  Lypos : 0 < Ly

/-- The solvers of C117. -/
inductive FOKind where
  | rsd
  | rcg (m : Method)

/-- Their search directions. -/
noncomputable def foDir (G : Geo X E) (c : ℝ) (ub : E) : FOKind → Past X → E
  | .rsd => rsdDirection G c ub
  | .rcg m => cgDirection G m c ub

/-- The methods of C117: the default method of Hestenes and Stiefel, the one of Hager and Zhang, steepest descent. -/
def FOKind.covered : FOKind → Prop
  | .rsd => True
  | .rcg m => m = .hestenesStiefel ∨ m = .hagerZhang ∨ m = .other

/-- Bound of length of the direction over length of the gradient; `q` is the condition number, `p2` the bound of the preconditioner. -/
noncomputable def foHi (p2 q : ℝ) : ℝ := max p2 1 + p2 * (q + 2 * q ^ 2)

/-- Hypotheses of C117: problem, solver and parameters. -/
structure FOArmijo (G : Geo X E) (k : FOKind) (c : ℝ) (C : LSCfg) (O : Oracle X E) (ub : E) (x0 : X) (fmin L mu Ly p2 thr : ℝ) : Prop where
  steps : ConvexSteps G mu Ly
  pre : ∀ x u, ‖G.P x u‖ ≤ p2 * ‖u‖
  p2pos : 0 ≤ p2
  cov : k.covered
  cpos : 0 < c
  c1 : c ≤ 1
  below : ∀ x, fmin ≤ G.f x
  upper : QuadUpper G L
  Lpos : 0 < L
  dir : O.dir = foDir G c ub k
  kind : C.kind = .armijo
  alpha : 0 < C.ls.alpha
  alpha1 : C.ls.alpha < 1
  r1 : 0 < C.ls.r1
  r11 : C.ls.r1 < 1
  r2 : C.ls.r2 < 1
  minPos : 0 < C.ls.minStep
  minSmall : C.ls.minStep ≤ C.ls.r1 * safeStep C.ls L c (foHi p2 (Ly / mu))
  nocall : O.callback = none
  thresh : Threshold C ‖G.grad x0‖ thr
  thrpos : 0 < thr
  acc : C.accuracy * (‖G.grad x0‖ + C.tol) ≤ thr
  tolpos : 0 < C.tol
  min0 : C.run.minIter = 0
  gap : C.run.record = true → 0 < C.run.outputGap

/-! ## Directions -/

theorem rsdDir_bounds {c p2 : ℝ} (hc : c ≤ 1) {P : E → E} {g : E} (hg : g ≠ 0) (hP : ‖P g‖ ≤ p2 * ‖g‖) :
    ⟪g, rsdDir c P g⟫ ≤ -c * ‖g‖ ^ 2 ∧ ‖rsdDir c P g‖ ≤ max p2 1 * ‖g‖ := by
  rcases rsdDir_spec (c := c) P g with h | ⟨h, hn⟩
  · rw [h, inner_neg_right, real_inner_self_eq_norm_sq, norm_neg]
    refine ⟨by nlinarith [sq_nonneg ‖g‖], ?_⟩
    have := mul_le_mul_of_nonneg_right (le_max_right p2 1) (norm_nonneg g)
    linarith
  · rw [h, norm_neg]
    have hd := descent_of_not hg hn
    unfold Descent at hd
    refine ⟨by rw [real_inner_comm]; linarith, hP.trans (mul_le_mul_of_nonneg_right (le_max_left _ _) (norm_nonneg _))⟩

/-- `σ` times the length of the old direction is bounded by the new gradient. -/
theorem sigma_bound {m : Method} (hm : m = .hestenesStiefel ∨ m = .hagerZhang ∨ m = .other) {mu Ly p2 t : ℝ} (hmu : 0 < mu) (hL : 0 < Ly) (hp : 0 ≤ p2) (ht : 0 < t)
    {g1 g2 Pg1 Pg2 Tg1 e : E} (he : 0 < ‖e‖) (hy : ‖g2 - Tg1‖ ≤ Ly * (t * ‖e‖)) (hyd : mu * t * ‖e‖ ^ 2 ≤ ⟪g2 - Tg1, e⟫) (hP : ‖Pg2‖ ≤ p2 * ‖g2‖) :
    ∃ s, rcgSigma m g1 g2 Pg1 Pg2 Tg1 e = some s ∧ |s| * ‖e‖ ≤ p2 * (Ly / mu + 2 * (Ly / mu) ^ 2) * ‖g2‖ := by
  have hyp : 0 < ⟪g2 - Tg1, e⟫ := lt_of_lt_of_le (by positivity) hyd
  have hg := norm_nonneg g2
  set y := g2 - Tg1 with hydef
  set yd := ⟪y, e⟫ with hydd
  have hq : 0 < Ly / mu := by positivity
  have hte : t * ‖e‖ * ‖e‖ ≤ yd / mu := by rw [le_div_iff₀ hmu]; nlinarith
  rcases hm with rfl | rfl | rfl
  · refine ⟨⟪Pg2, y⟫ / yd, by rw [rcgSigma, quot, if_neg hyp.ne'], ?_⟩
    rw [abs_div, abs_of_pos hyp, div_mul_eq_mul_div, div_le_iff₀ hyp]
    have h1 : |⟪Pg2, y⟫| ≤ p2 * ‖g2‖ * (Ly * (t * ‖e‖)) := (abs_real_inner_le_norm _ _).trans (mul_le_mul hP hy (norm_nonneg _) (by positivity))
    calc |⟪Pg2, y⟫| * ‖e‖ ≤ p2 * ‖g2‖ * (Ly * (t * ‖e‖)) * ‖e‖ := mul_le_mul_of_nonneg_right h1 he.le
      _ = p2 * ‖g2‖ * Ly * (t * ‖e‖ * ‖e‖) := by ring
      _ ≤ p2 * ‖g2‖ * Ly * (yd / mu) := mul_le_mul_of_nonneg_left hte (by positivity)
      _ = p2 * (Ly / mu) * ‖g2‖ * yd := by ring
      _ ≤ p2 * (Ly / mu + 2 * (Ly / mu) ^ 2) * ‖g2‖ * yd := by
        refine mul_le_mul_of_nonneg_right (mul_le_mul_of_nonneg_right (mul_le_mul_of_nonneg_left ?_ hp) hg) hyp.le
        have : 0 ≤ 2 * (Ly / mu) ^ 2 := by positivity
        linarith
  · set a := 2 * ⟪y, y⟫ / yd with ha
    refine ⟨⟪y - a • e, Pg2⟫ / yd, by simp only [rcgSigma, quot]; rw [if_neg hyp.ne', Option.bind_some, if_neg hyp.ne'], ?_⟩
    rw [abs_div, abs_of_pos hyp, div_mul_eq_mul_div, div_le_iff₀ hyp]
    have ha0 : 0 ≤ a := by rw [ha]; exact div_nonneg (mul_nonneg zero_le_two real_inner_self_nonneg) hyp.le
    have h2 : a * ‖e‖ ≤ 2 * (Ly ^ 2 / mu) * (t * ‖e‖) := by
      rw [ha, div_mul_eq_mul_div, div_le_iff₀ hyp, real_inner_self_eq_norm_sq]
      have hy2 : ‖y‖ ^ 2 ≤ (Ly * (t * ‖e‖)) ^ 2 := pow_le_pow_left₀ (norm_nonneg _) hy 2
      calc 2 * ‖y‖ ^ 2 * ‖e‖ ≤ 2 * (Ly * (t * ‖e‖)) ^ 2 * ‖e‖ := by gcongr
        _ = 2 * Ly ^ 2 * (t * ‖e‖) * (t * ‖e‖ * ‖e‖) := by ring
        _ ≤ 2 * Ly ^ 2 * (t * ‖e‖) * (yd / mu) := mul_le_mul_of_nonneg_left hte (by positivity)
        _ = _ := by ring
    have h3 : ‖y - a • e‖ ≤ (Ly + 2 * (Ly ^ 2 / mu)) * (t * ‖e‖) := by
      refine (norm_sub_le _ _).trans ?_
      rw [norm_smul, Real.norm_eq_abs, abs_of_nonneg ha0]
      linarith
    have h1 : |⟪y - a • e, Pg2⟫| ≤ (Ly + 2 * (Ly ^ 2 / mu)) * (t * ‖e‖) * (p2 * ‖g2‖) :=
      (abs_real_inner_le_norm _ _).trans (mul_le_mul h3 hP (norm_nonneg _) (by positivity))
    calc |⟪y - a • e, Pg2⟫| * ‖e‖ ≤ (Ly + 2 * (Ly ^ 2 / mu)) * (t * ‖e‖) * (p2 * ‖g2‖) * ‖e‖ := mul_le_mul_of_nonneg_right h1 he.le
      _ = (Ly + 2 * (Ly ^ 2 / mu)) * (p2 * ‖g2‖) * (t * ‖e‖ * ‖e‖) := by ring
      _ ≤ (Ly + 2 * (Ly ^ 2 / mu)) * (p2 * ‖g2‖) * (yd / mu) := mul_le_mul_of_nonneg_left hte (by positivity)
      _ = p2 * (Ly / mu + 2 * (Ly / mu) ^ 2) * ‖g2‖ * yd := by field_simp
  · refine ⟨0, rfl, ?_⟩
    rw [abs_zero, zero_mul]; positivity

/-- What is known about the directions of a run. -/
def FOGood (G : Geo X E) (c ubd thr : ℝ) : FOKind → Past X → Prop
  | .rsd, _ => True
  | .rcg m, p => ∃ x u q d, p = (x, u) :: q ∧ cgDir G m c p = some d ∧ (thr ≤ ‖G.grad x‖ → ⟪G.grad x, d⟫ ≤ -c * ‖G.grad x‖ ^ 2 ∧ ‖d‖ ≤ ubd * ‖G.grad x‖)

section

variable {G : Geo X E} {k : FOKind} {c : ℝ} {ub : E} {mu Ly p2 thr : ℝ} (S : ConvexSteps G mu Ly) (hp2 : 0 ≤ p2) (hP : ∀ x u, ‖G.P x u‖ ≤ p2 * ‖u‖) (hcov : k.covered) (hc0 : 0 < c) (hc1 : c ≤ 1) (ht : 0 < thr)
include S hp2 hP hcov hc0 hc1 ht

theorem fo_hi : max p2 1 ≤ foHi p2 (Ly / mu) ∧ 0 < foHi p2 (Ly / mu) := by
  have h1 := S.mupos; have h2 := S.Lypos
  have h3 : 0 ≤ p2 * (Ly / mu + 2 * (Ly / mu) ^ 2) := by positivity
  have h4 := le_max_right p2 1
  unfold foHi
  constructor <;> linarith

theorem fo_dirs {x : X} {t : ℝ} {p : Past X} (h : FOGood G c (foHi p2 (Ly / mu)) thr k ((x, t) :: p)) (hg : thr ≤ ‖G.grad x‖) :
    ⟪G.grad x, foDir G c ub k ((x, t) :: p)⟫ ≤ -c * ‖G.grad x‖ ^ 2 ∧ ‖foDir G c ub k ((x, t) :: p)‖ ≤ foHi p2 (Ly / mu) * ‖G.grad x‖ := by
  obtain ⟨f1, f2⟩ := fo_hi (k := k) S hp2 hP hcov hc0 hc1 ht
  have hgp : 0 < ‖G.grad x‖ := lt_of_lt_of_le ht hg
  cases k with
  | rsd =>
    obtain ⟨h1, h2⟩ := rsdDir_bounds (c := c) hc1 (norm_pos_iff.mp hgp) (hP x (G.grad x))
    exact ⟨h1, h2.trans (mul_le_mul_of_nonneg_right f1 hgp.le)⟩
  | rcg m =>
    obtain ⟨x', u, q, d, e, e1, e2⟩ := h
    simp only [List.cons.injEq, Prod.mk.injEq] at e
    obtain ⟨⟨rfl, rfl⟩, rfl⟩ := e
    have : foDir G c ub (.rcg m) ((x, t) :: p) = d := by rw [foDir, cgDirection, e1]; rfl
    rw [this]
    exact e2 hg

theorem fo_good0 (x0 : X) : FOGood G c (foHi p2 (Ly / mu)) thr k [(x0, 0)] := by
  obtain ⟨f1, f2⟩ := fo_hi (k := k) S hp2 hP hcov hc0 hc1 ht
  cases k with
  | rsd => trivial
  | rcg m =>
    refine ⟨x0, 0, [], _, rfl, cg_first G m c x0 0, fun hg => ?_⟩
    have hgp : 0 < ‖G.grad x0‖ := lt_of_lt_of_le ht hg
    obtain ⟨h1, h2⟩ := rsdDir_bounds (c := c) hc1 (norm_pos_iff.mp hgp) (hP x0 (G.grad x0))
    exact ⟨h1, h2.trans (mul_le_mul_of_nonneg_right f1 hgp.le)⟩

theorem fo_goodS {x : X} {u t : ℝ} {p : Past X} (h : FOGood G c (foHi p2 (Ly / mu)) thr k ((x, u) :: p)) (hg : thr ≤ ‖G.grad x‖) (htp : 0 < t) :
    FOGood G c (foHi p2 (Ly / mu)) thr k ((G.retr x (t • foDir G c ub k ((x, u) :: p)), t) :: (x, u) :: p) := by
  obtain ⟨f1, f2⟩ := fo_hi (k := k) S hp2 hP hcov hc0 hc1 ht
  have hd := fo_dirs (ub := ub) S hp2 hP hcov hc0 hc1 ht h hg
  cases k with
  | rsd => trivial
  | rcg m =>
    obtain ⟨x', u', q, d, e, e1, e2⟩ := h
    simp only [List.cons.injEq, Prod.mk.injEq] at e
    obtain ⟨⟨rfl, rfl⟩, rfl⟩ := e
    have hdd : foDir G c ub (.rcg m) ((x, u) :: p) = d := by rw [foDir, cgDirection, e1]; rfl
    rw [hdd] at hd ⊢
    have hgp : 0 < ‖G.grad x‖ := lt_of_lt_of_le ht hg
    have hdn : 0 < ‖d‖ := by
      rw [norm_pos_iff]; intro h0
      have h1 := hd.1
      rw [h0, inner_zero_right] at h1
      have : 0 < c * ‖G.grad x‖ ^ 2 := by positivity
      linarith
    set x2 := G.retr x (t • d) with hx2
    set e := G.T x (t • d) d with he
    have hen : ‖e‖ = ‖d‖ := LinearIsometryEquiv.norm_map _ _
    have hlip := S.lip x (t • d)
    have hconv := S.conv x (t • d)
    rw [norm_smul, Real.norm_eq_abs, abs_of_pos htp] at hlip hconv
    rw [map_smul, inner_smul_left, conj_trivial, ← he, real_inner_comm] at hconv
    have hyd : mu * t * ‖e‖ ^ 2 ≤ ⟪G.grad x2 - G.T x (t • d) (G.grad x), e⟫ := by
      rw [hen]
      have : t * (mu * t * ‖d‖ ^ 2) ≤ t * ⟪G.grad x2 - G.T x (t • d) (G.grad x), e⟫ := by rw [← hx2] at hconv; nlinarith
      exact le_of_mul_le_mul_left this htp
    obtain ⟨s, s1, s2⟩ := sigma_bound hcov S.mupos S.Lypos hp2 htp (Pg1 := G.P x (G.grad x)) (g1 := G.grad x) (by rw [hen]; exact hdn) (by rw [hen]; exact hlip) hyd (hP x2 (G.grad x2))
    obtain ⟨d2, n1, n2⟩ := cg_next G m c (x2 := x2) (t := t) e1 (by rw [s1]; rfl)
    refine ⟨x2, t, _, d2, rfl, n1, fun hg2 => ?_⟩
    have hg2p : 0 < ‖G.grad x2‖ := lt_of_lt_of_le ht hg2
    rcases n2 with n2 | ⟨n2, s', n3, n4⟩
    · obtain ⟨h1, h2⟩ := rsdDir_bounds (c := c) hc1 (norm_pos_iff.mp hg2p) (hP x2 (G.grad x2))
      rw [n2]
      exact ⟨h1, h2.trans (mul_le_mul_of_nonneg_right f1 hg2p.le)⟩
    · refine ⟨?_, ?_⟩
      · have := descent_of_not (norm_pos_iff.mp hg2p) n2
        unfold Descent at this
        rw [real_inner_comm]; linarith
      · have hs' : |s'| * ‖e‖ ≤ p2 * (Ly / mu + 2 * (Ly / mu) ^ 2) * ‖G.grad x2‖ := by
          rcases n3 with rfl | n3
          · have h1 := S.mupos; have h2 := S.Lypos
            rw [abs_zero, zero_mul]; positivity
          · rw [s1] at n3; injection n3 with n3; rw [← n3]; exact s2
        rw [n4]
        refine (norm_add_le _ _).trans ?_
        rw [norm_neg, norm_smul, Real.norm_eq_abs, ← he]
        have h4 := mul_le_mul_of_nonneg_right (le_max_right p2 1) hg2p.le
        unfold foHi
        nlinarith

end

/-! ## Barzilai-Borwein steps -/

/-- The last pair has positive curvature and all stored steps are numbers. -/
def BBGood (G : Geo X E) (dir : Past X → E) (b : BBCfg) (init0 eps : ℝ) (p : Past X) : Prop :=
  ∀ x2 t x1 u q, p = (x2, t) :: (x1, u) :: q → 0 < ⟪(bbPair G dir x2 t x1 u q).1, (bbPair G dir x2 t x1 u q).2⟫ ∧ ∀ e ∈ preBBs G dir b init0 eps ((x1, u) :: q), ∃ v, e = .fin v

theorem bb_fin {s y : E} (h : 0 < ⟪s, y⟫) : (∃ v, bb1 (s, y) = .fin v ∧ 0 < v) ∧ ∃ v, bb2 (s, y) = .fin v := by
  have hs : s ≠ 0 := by intro h0; rw [h0, inner_zero_left] at h; exact lt_irrefl _ h
  have hy : y ≠ 0 := by intro h0; rw [h0, inner_zero_right] at h; exact lt_irrefl _ h
  have hyy : ⟪y, y⟫ ≠ 0 := by rw [real_inner_self_eq_norm_sq]; exact pow_ne_zero 2 (norm_ne_zero_iff.mpr hy)
  have hss : 0 < ⟪s, s⟫ := by rw [real_inner_self_eq_norm_sq]; have := norm_pos_iff.mpr hs; positivity
  refine ⟨⟨_, by rw [bb1, divExt, if_neg h.ne'], by positivity⟩, ⟨_, by rw [bb2, divExt, if_neg hyy]⟩⟩

/-- All stored steps are numbers. -/
theorem preBBs_fin {G : Geo X E} {dir : Past X → E} {b : BBCfg} {init0 eps : ℝ} {p : Past X} (h : BBGood G dir b init0 eps p) (hg : ∀ x t q, p = (x, t) :: q → 0 < ‖G.grad x‖) :
    ∀ e ∈ preBBs G dir b init0 eps p, ∃ v, e = .fin v := by
  match p, h, hg with
  | [], _, _ => intro e he; simp [preBBs] at he
  | [_], _, _ => intro e he; simp [preBBs] at he
  | (x2, t) :: (x1, u) :: q, h, hg =>
    obtain ⟨h1, h2⟩ := h x2 t x1 u q rfl
    intro e he
    rw [preBBs] at he
    have he := List.mem_of_mem_take he
    rcases List.mem_cons.mp he with he | he
    · rw [he]
      by_cases hc : Ext.lt (bb2 (bbPair G dir x2 t x1 u q)) (.fin eps) = true
      · rw [if_pos hc, divExt, if_neg (hg x2 t _ rfl).ne']; exact ⟨_, rfl⟩
      · rw [if_neg hc]; exact (bb_fin h1).2
    · exact h2 e he

theorem foldl_fin (l : List (Ext ℝ)) (hl : ∀ e ∈ l, ∃ v, e = .fin v) (a : Ext ℝ) (ha : ∃ v, a = .fin v) :
    ∃ v, l.foldl (fun a j => if Ext.lt j a then j else a) a = .fin v := by
  induction l generalizing a with
  | nil => exact ha
  | cons e l ih =>
    rw [List.foldl_cons]
    refine ih (fun e' he' => hl e' (List.mem_cons_of_mem _ he')) _ ?_
    split
    · exact hl e List.mem_cons_self
    · exact ha

/-- The candidate is a number. -/
theorem bbCand_fin {G : Geo X E} {dir : Past X → E} {b : BBCfg} {init0 eps : ℝ} {x2 : X} {t : ℝ} {x1 : X} {u : ℝ} {q : Past X} (h : BBGood G dir b init0 eps ((x2, t) :: (x1, u) :: q)) (hg : 0 < ‖G.grad x2‖) :
    ∃ v, bbCand G dir b init0 eps ((x2, t) :: (x1, u) :: q) = .fin v := by
  have hpre := preBBs_fin h (fun x t' q' e => by simp only [List.cons.injEq, Prod.mk.injEq] at e; rw [← e.1.1]; exact hg)
  obtain ⟨h1, -⟩ := h x2 t x1 u q rfl
  obtain ⟨⟨v1, k1, -⟩, v2, k2⟩ := bb_fin h1
  rw [bbCand]
  simp only
  split
  · exact ⟨v1, k1⟩
  · split
    · exact ⟨v2, k2⟩
    · split
      · exact foldl_fin _ (fun e he => hpre e (List.mem_of_mem_take he)) _ ⟨v2, k2⟩
      · exact ⟨v1, k1⟩

/-- Between the two bounds. -/
def Ext.within (lo hi : ℝ) (e : Ext ℝ) : Prop := ∃ v, e = .fin v ∧ lo ≤ v ∧ v ≤ hi

theorem bb_within {mu Ly : ℝ} (hmu : 0 < mu) (hL : 0 < Ly) {s y : E} (hs : s ≠ 0) (hc : mu * ‖s‖ ^ 2 ≤ ⟪s, y⟫) (hl : ‖y‖ ≤ Ly * ‖s‖) :
    ∃ v1 v2, bb1 (s, y) = .fin v1 ∧ bb2 (s, y) = .fin v2 ∧ mu / Ly ^ 2 ≤ v2 ∧ v2 ≤ v1 ∧ v1 ≤ 1 / mu ∧
      (∀ r : ℝ, ‖y - (1 / v1) • s‖ ≤ ‖y - r • s‖) ∧ ∀ r : ℝ, ‖s - v2 • y‖ ≤ ‖s - r • y‖ := by
  have hsn : 0 < ‖s‖ := norm_pos_iff.mpr hs
  have hsy : 0 < ⟪s, y⟫ := lt_of_lt_of_le (by positivity) hc
  have hyn : 0 < ‖y‖ := by rw [norm_pos_iff]; intro h0; rw [h0, inner_zero_right] at hsy; exact lt_irrefl _ hsy
  have hyy : ¬ ⟪y, y⟫ = 0 := by rw [real_inner_self_eq_norm_sq]; positivity
  have hproj : ∀ (a b : E) (r : ℝ), b ≠ 0 → ‖a - (⟪a, b⟫ / ⟪b, b⟫) • b‖ ≤ ‖a - r • b‖ := by
    intro a b r hb
    have hb' : 0 < ‖b‖ := norm_pos_iff.mpr hb
    refine le_of_sq_le_sq ?_ (norm_nonneg _)
    rw [norm_sub_sq_real, norm_sub_sq_real, inner_smul_right, inner_smul_right, norm_smul, norm_smul, mul_pow, mul_pow, Real.norm_eq_abs, Real.norm_eq_abs, sq_abs, sq_abs,
      real_inner_self_eq_norm_sq]
    have : 0 ≤ (⟪a, b⟫ / ‖b‖ ^ 2 - r) ^ 2 * ‖b‖ ^ 2 := by positivity
    have e : (⟪a, b⟫ / ‖b‖ ^ 2 - r) ^ 2 * ‖b‖ ^ 2 = (‖a‖ ^ 2 - 2 * (r * ⟪a, b⟫) + r ^ 2 * ‖b‖ ^ 2) - (‖a‖ ^ 2 - 2 * (⟪a, b⟫ / ‖b‖ ^ 2 * ⟪a, b⟫) + (⟪a, b⟫ / ‖b‖ ^ 2) ^ 2 * ‖b‖ ^ 2) := by
      field_simp; ring
    linarith
  refine ⟨⟪s, s⟫ / ⟪s, y⟫, ⟪s, y⟫ / ⟪y, y⟫, by rw [bb1, divExt, if_neg hsy.ne'], by rw [bb2, divExt, if_neg hyy], ?_, ?_, ?_, ?_, ?_⟩
  · rw [real_inner_self_eq_norm_sq, div_le_div_iff₀ (by positivity) (by positivity)]
    have h2 : ‖y‖ ^ 2 ≤ (Ly * ‖s‖) ^ 2 := pow_le_pow_left₀ (norm_nonneg _) hl 2
    calc mu * ‖y‖ ^ 2 ≤ mu * (Ly * ‖s‖) ^ 2 := mul_le_mul_of_nonneg_left h2 hmu.le
      _ = mu * ‖s‖ ^ 2 * Ly ^ 2 := by ring
      _ ≤ _ := mul_le_mul_of_nonneg_right hc (by positivity)
  · rw [real_inner_self_eq_norm_sq, real_inner_self_eq_norm_sq, div_le_div_iff₀ (by positivity) hsy]
    have := real_inner_le_norm s y
    calc ⟪s, y⟫ * ⟪s, y⟫ ≤ (‖s‖ * ‖y‖) * (‖s‖ * ‖y‖) := mul_le_mul this this hsy.le (by positivity)
      _ = _ := by ring
  · rw [real_inner_self_eq_norm_sq, div_le_div_iff₀ hsy hmu]; linarith
  · intro r
    rw [one_div_div, real_inner_comm]; exact hproj y s r hs
  · intro r; exact hproj s y r (norm_pos_iff.mp hyn)

/-- The steps that were stored, `Num_pre_BB` of them at most. -/
theorem preBBs_within {G : Geo X E} {dir : Past X → E} {b : BBCfg} {init0 eps lo hi : ℝ} (heps : eps ≤ lo) :
    ∀ (p : Past X), (∀ q₀ x2 t x1 u q, p = q₀ ++ (x2, t) :: (x1, u) :: q → (bb2 (bbPair G dir x2 t x1 u q)).within lo hi) →
      (∀ e ∈ preBBs G dir b init0 eps p, e.within lo hi) ∧
      preBBs G dir b init0 eps p = ((List.range (p.length - 1)).map fun i => match p.drop i with
        | (x2, t) :: (x1, u) :: q => bb2 (bbPair G dir x2 t x1 u q)
        | _ => .nan).take b.num
  | [], _ => by simp [preBBs]
  | [_], _ => by simp [preBBs]
  | (x2, t) :: (x1, u) :: q, h => by
    obtain ⟨i1, i2⟩ := preBBs_within heps ((x1, u) :: q) (fun q₀ y r z w q' e => h ((x2, t) :: q₀) y r z w q' (by rw [e]; rfl))
    have h0 := h [] x2 t x1 u q rfl
    have hv : (if Ext.lt (bb2 (bbPair G dir x2 t x1 u q)) (.fin eps) then divExt init0 ‖G.grad x2‖ else bb2 (bbPair G dir x2 t x1 u q)) = bb2 (bbPair G dir x2 t x1 u q) := by
      obtain ⟨v, k1, k2, -⟩ := h0
      rw [k1, if_neg]
      simp only [Ext.lt, decide_eq_true_eq, not_lt]; linarith
    constructor
    · intro e he
      rw [preBBs] at he
      have he := List.mem_of_mem_take he
      rcases List.mem_cons.mp he with he | he
      · rw [he, hv]; exact h0
      · exact i1 e he
    · rw [preBBs, i2]
      simp only [hv, List.length_cons, Nat.add_sub_cancel]
      rw [List.range_succ_eq_map, List.map_cons, List.map_map]
      cases hn : b.num with
      | zero => simp
      | succ n =>
        rw [List.take_succ_cons, List.take_succ_cons]
        congr 1
        rw [List.take_take, min_eq_left (Nat.le_succ n)]
        rfl

theorem foldl_min {lo hi : ℝ} (l : List (Ext ℝ)) (hl : ∀ e ∈ l, e.within lo hi) (a : Ext ℝ) (ha : a.within lo hi) :
    ∃ v, l.foldl (fun a j => if Ext.lt j a then j else a) a = .fin v ∧ lo ≤ v ∧ v ≤ hi ∧ (∃ e ∈ a :: l, e = .fin v) ∧ ∀ e ∈ a :: l, ∀ w, e = .fin w → v ≤ w := by
  induction l generalizing a with
  | nil =>
    obtain ⟨v, rfl, h1, h2⟩ := ha
    exact ⟨v, rfl, h1, h2, ⟨_, List.mem_cons_self, rfl⟩, fun e he w hw => by simp at he; rw [he] at hw; injection hw with hw; exact hw.le⟩
  | cons e l ih =>
    rw [List.foldl_cons]
    have he := hl e List.mem_cons_self
    obtain ⟨v, k1, k2, k3, ⟨e', k4, k5⟩, k6⟩ := ih (fun e' he' => hl e' (List.mem_cons_of_mem _ he')) (if Ext.lt e a then e else a) (by split <;> assumption)
    refine ⟨v, k1, k2, k3, ⟨e', ?_, k5⟩, ?_⟩
    · rcases List.mem_cons.mp k4 with k | k
      · rw [k]; split <;> simp
      · simp [k]
    · intro e'' h'' w hw
      obtain ⟨va, rfl, -⟩ := ha
      obtain ⟨ve, rfl, -⟩ := he
      have hm : v ≤ min ve va := by
        by_cases hlt : Ext.lt (.fin ve) (.fin va) = true
        · rw [if_pos hlt] at k6
          have := k6 _ List.mem_cons_self ve rfl
          simp only [Ext.lt, decide_eq_true_eq] at hlt
          exact le_min this (this.trans hlt.le)
        · rw [if_neg hlt] at k6
          have := k6 _ List.mem_cons_self va rfl
          simp only [Ext.lt, decide_eq_true_eq, not_lt] at hlt
          exact le_min (this.trans hlt) this
      rcases List.mem_cons.mp h'' with k | k
      · rw [k] at hw; injection hw with hw; rw [← hw]; exact hm.trans (min_le_right _ _)
      · rcases List.mem_cons.mp k with k | k
        · rw [k] at hw; injection hw with hw; rw [← hw]; exact hm.trans (min_le_left _ _)
        · exact k6 e'' (List.mem_cons_of_mem _ k) w hw

/-! ## C117 -/

section runs

variable {G : Geo X E} {k : FOKind} {c : ℝ} {C : LSCfg} {O : Oracle X E} {ub : E} {x0 : X} {fmin L mu Ly p2 thr : ℝ}

/-- The setting of C99 for `RSD` and `RCG` with initial steps that are bounded below. -/
theorem FOArmijo.reach (S : FOArmijo G k c C O ub x0 fmin L mu Ly p2 thr) {lo : ℝ} (hlo : 0 < lo) (hinit : ∀ p, lo ≤ O.init p) :
    ReachSetting G.land C O (fun _ d => ‖d‖) (FOGood G c (foHi p2 (Ly / mu)) thr k) x0 fmin L c (foHi p2 (Ly / mu)) lo thr := by
  have hf := fo_hi S.steps S.p2pos S.pre S.cov S.cpos S.c1 S.thrpos
  exact
    { below := S.below, upper := land_upper S.upper, init := fun x t past _ _ => hinit _
      dirs := by
        intro x t past h hg
        rw [S.dir]
        obtain ⟨h1, h2⟩ := fo_dirs (ub := ub) S.steps S.p2pos S.pre S.cov S.cpos S.c1 S.thrpos h hg
        exact ⟨h1, h2, norm_nonneg _⟩
      good0 := fo_good0 S.steps S.p2pos S.pre S.cov S.cpos S.c1 S.thrpos x0
      goodS := by
        intro x u past t h hg ht _ _ _
        rw [S.dir]
        exact fo_goodS S.steps S.p2pos S.pre S.cov S.cpos S.c1 S.thrpos h hg ht
      Lpos := S.Lpos, c1pos := S.cpos, c2pos := hf.2, kind := S.kind
      alpha := S.alpha, alpha1 := S.alpha1, r1 := S.r1, r11 := S.r11, r2 := S.r2, minPos := S.minPos, minSmall := S.minSmall, lopos := hlo, nocall := S.nocall
      thresh := S.thresh, thrpos := S.thrpos, acc := S.acc, tolpos := S.tolpos, g0 := norm_nonneg _, min0 := S.min0, gap := S.gap }

/-- **C117, Armijo.** A run of `RSD`, or of `RCG` with the method of Hestenes and Stiefel (the default), of Hager and Zhang or an unknown method number, with the Armijo search (monotone or not), an arbitrary bounded
preconditioner (not necessarily positive) and initial steps that are bounded below, on a problem that is strongly convex and smooth along steps, ends by its gradient test or the time limit after a
bounded number of iterations; every search succeeded. -/
theorem C117_armijo (S : FOArmijo G k c C O ub x0 fmin L mu Ly p2 thr) {lo : ℝ} (hlo : 0 < lo) (hinit : ∀ p, lo ≤ O.init p)
    (hN : (max 1 C.run.numPre : ℕ) * (G.f x0 - fmin) < C.run.maxIter * gain C.ls L c (foHi p2 (Ly / mu)) lo thr) :
    ∃ s, lsRun G.land C O x0 (C.run.maxIter + 1) = .finished s ∧ s.rs.ok = true ∧ s.rs.f1 = G.f s.x ∧
      s.rs.iter * gain C.ls L c (foHi p2 (Ly / mu)) lo thr ≤ (max 1 C.run.numPre : ℕ) * (G.f x0 - G.f s.x) ∧
      (O.timeUp s.rs.iter = true ∨ ‖G.grad s.x‖ < thr) ∧ FOGood G c (foHi p2 (Ly / mu)) thr k s.past := by
  have hf := fo_hi S.steps S.p2pos S.pre S.cov S.cpos S.c1 S.thrpos
  exact armijo_converges_reach (S.reach hlo hinit) hN

/-- The setting of C113 for `RSD` and `RCG` with the steps of Barzilai and Borwein. -/
theorem FOArmijo.steps_bb (S : FOArmijo G k c C O ub x0 fmin L mu Ly p2 thr) (b : BBCfg) {init0 eps : ℝ} (h0 : 0 < init0) (heps : 0 < eps) (hmono : C.run.numPre ≤ 1)
    (hrule : ∀ p, O.init p = bbStep G O.dir b init0 eps p) :
    StepSetting G.land C O (fun _ d => ‖d‖) (fun p => FOGood G c (foHi p2 (Ly / mu)) thr k p ∧ BBGood G O.dir b init0 eps p) x0 fmin L c (foHi p2 (Ly / mu)) thr
      (1 + √(2 * L * (G.f x0 - fmin))) init0 (ruleStep G.land O.dir init0 eps (bbCand G O.dir b init0 eps)) := by
  have hf := fo_hi S.steps S.p2pos S.pre S.cov S.cpos S.c1 S.thrpos
  exact
    { below := S.below, upper := land_upper S.upper
      dirs := by
        intro x t past h hg
        rw [S.dir]
        obtain ⟨h1, h2⟩ := fo_dirs (ub := ub) S.steps S.p2pos S.pre S.cov S.cpos S.c1 S.thrpos h.1 hg
        exact ⟨h1, h2, norm_nonneg _⟩
      good0 := ⟨fo_good0 S.steps S.p2pos S.pre S.cov S.cpos S.c1 S.thrpos x0, fun x2 t x1 u q e => by simp at e⟩
      goodS := by
        intro x u past t h hg ht _ _
        have hgp : 0 < ‖G.grad x‖ := lt_of_lt_of_le S.thrpos hg
        refine ⟨by rw [S.dir]; exact fo_goodS S.steps S.p2pos S.pre S.cov S.cpos S.c1 S.thrpos h.1 hg ht, ?_⟩
        intro x2 t' x1 u' q e
        simp only [List.cons.injEq, Prod.mk.injEq] at e
        obtain ⟨⟨rfl, rfl⟩, ⟨rfl, rfl⟩, rfl⟩ := e
        refine ⟨?_, preBBs_fin h.2 (fun y r q e => by simp only [List.cons.injEq, Prod.mk.injEq] at e; rw [← e.1.1]; exact hgp)⟩
        have hd := (fo_dirs (ub := ub) S.steps S.p2pos S.pre S.cov S.cpos S.c1 S.thrpos h.1 hg).1
        rw [← S.dir] at hd
        set d := O.dir ((x, u) :: past) with hdd
        have hdn : 0 < ‖d‖ := by
          rw [norm_pos_iff]; intro h0
          rw [h0, inner_zero_right] at hd
          have := S.cpos
          have : 0 < c * ‖G.grad x‖ ^ 2 := by positivity
          linarith
        have hconv := S.steps.conv x (t • d)
        refine lt_of_lt_of_le ?_ hconv
        have := S.steps.mupos
        rw [norm_smul, Real.norm_eq_abs, abs_of_pos ht]
        positivity
      rule := hrule, mono := hmono, init0 := h0
      bound := grad_bound S.below S.upper S.Lpos x0, Gpos := by positivity
      Lpos := S.Lpos, c1pos := S.cpos, c2pos := hf.2, kind := S.kind
      alpha := S.alpha, alpha1 := S.alpha1, r1 := S.r1, r11 := S.r11, r2 := S.r2, minPos := S.minPos, minSmall := S.minSmall, nocall := S.nocall
      thresh := S.thresh, thrpos := S.thrpos, acc := S.acc, tolpos := S.tolpos, g0 := norm_nonneg _, min0 := S.min0, gap := S.gap }

/-- **C117, Barzilai-Borwein.** The same with the default initial steps of these solvers, the ones of Barzilai and Borwein, with any values of `BBratio` and `Num_pre_BB`, and the monotone search: no assumption on
the steps is left. The step that is tried first is a number in every iteration. -/
theorem C117_bb (S : FOArmijo G k c C O ub x0 fmin L mu Ly p2 thr) (b : BBCfg) {init0 eps : ℝ} (h0 : 0 < init0) (heps : 0 < eps) (hmono : C.run.numPre ≤ 1)
    (hrule : ∀ p, O.init p = bbStep G O.dir b init0 eps p)
    (hN : G.f x0 - fmin < C.run.maxIter * gain C.ls L c (foHi p2 (Ly / mu)) (anyFloor init0 (1 + √(2 * L * (G.f x0 - fmin))) eps) thr) :
    ∃ s, lsRun G.land C O x0 (C.run.maxIter + 1) = .finished s ∧ s.rs.ok = true ∧ s.rs.f1 = G.f s.x ∧
      s.rs.iter * gain C.ls L c (foHi p2 (Ly / mu)) (anyFloor init0 (1 + √(2 * L * (G.f x0 - fmin))) eps) thr ≤ G.f x0 - G.f s.x ∧
      (O.timeUp s.rs.iter = true ∨ ‖G.grad s.x‖ < thr) ∧ FOGood G c (foHi p2 (Ly / mu)) thr k s.past ∧ BBGood G O.dir b init0 eps s.past := by
  have hf := fo_hi S.steps S.p2pos S.pre S.cov S.cpos S.c1 S.thrpos
  have R := S.steps_bb b h0 heps hmono hrule
  obtain ⟨s, e1, e2, e3, e4, e5, e6⟩ := C113_any_rule R heps (fun x2 t x1 u q h hg _ => bbCand_fin h.2 (lt_of_lt_of_le S.thrpos hg)) hN
  exact ⟨s, e1, e2, e3, e4, e5, e6.1, e6.2⟩

end runs

/-- **C117, the value.** If all pairs of the past have curvature at least `mu` and Lipschitz constant `Ly` and the machine precision is below `mu/Ly²`, the Barzilai-Borwein candidate is a number between `mu/Ly²` and `1/mu`:
with `BBratio = 0` it is the scale that maps step to change of gradient best (in the least squares sense), with `BBratio = 1` and no memory the one that maps change of gradient to step best, otherwise
the least of the last `Num_pre_BB` (at least one) of the latter if that is less than `BBratio` times the former, and the former else. -/
theorem C117_bb_value {G : Geo X E} {dir : Past X → E} (b : BBCfg) {init0 eps mu Ly : ℝ} (hmu : 0 < mu) (hL : 0 < Ly) (heps : eps ≤ mu / Ly ^ 2) {x2 : X} {t : ℝ} {x1 : X} {u : ℝ} {q : Past X}
    (h : ∀ q₀ y2 r y1 v q', (x2, t) :: (x1, u) :: q = q₀ ++ (y2, r) :: (y1, v) :: q' → (bbPair G dir y2 r y1 v q').1 ≠ 0 ∧
      mu * ‖(bbPair G dir y2 r y1 v q').1‖ ^ 2 ≤ ⟪(bbPair G dir y2 r y1 v q').1, (bbPair G dir y2 r y1 v q').2⟫ ∧ ‖(bbPair G dir y2 r y1 v q').2‖ ≤ Ly * ‖(bbPair G dir y2 r y1 v q').1‖) :
    ∃ v v1 v2, bbCand G dir b init0 eps ((x2, t) :: (x1, u) :: q) = .fin v ∧ mu / Ly ^ 2 ≤ v ∧ v ≤ 1 / mu ∧ v ≤ v1 ∧
      (∀ r : ℝ, ‖(bbPair G dir x2 t x1 u q).2 - (1 / v1) • (bbPair G dir x2 t x1 u q).1‖ ≤ ‖(bbPair G dir x2 t x1 u q).2 - r • (bbPair G dir x2 t x1 u q).1‖) ∧
      (∀ r : ℝ, ‖(bbPair G dir x2 t x1 u q).1 - v2 • (bbPair G dir x2 t x1 u q).2‖ ≤ ‖(bbPair G dir x2 t x1 u q).1 - r • (bbPair G dir x2 t x1 u q).2‖) ∧
      (b.ratio = 0 → v = v1) ∧ (b.ratio = 1 → b.num = 0 → v = v2) ∧
      (b.ratio ≠ 0 → ¬ (b.ratio = 1 ∧ b.num = 0) → ∃ w, w ≤ v2 ∧
        (∀ e ∈ ((List.range (q.length + 1)).map fun i => match ((x2, t) :: (x1, u) :: q).drop i with
          | (y2, r) :: (y1, z) :: q' => bb2 (bbPair G dir y2 r y1 z q')
          | _ => .nan).take b.num, ∃ a, e = .fin a ∧ w ≤ a) ∧
        (w = v2 ∨ .fin w ∈ ((List.range (q.length + 1)).map fun i => match ((x2, t) :: (x1, u) :: q).drop i with
          | (y2, r) :: (y1, z) :: q' => bb2 (bbPair G dir y2 r y1 z q')
          | _ => .nan).take b.num) ∧
        v = if w < b.ratio * v1 then w else v1) := by
  have hall : ∀ q₀ y2 r y1 v q', (x2, t) :: (x1, u) :: q = q₀ ++ (y2, r) :: (y1, v) :: q' → (bb2 (bbPair G dir y2 r y1 v q')).within (mu / Ly ^ 2) (1 / mu) := by
    intro q₀ y2 r y1 v q' e
    obtain ⟨h1, h2, h3⟩ := h q₀ y2 r y1 v q' e
    obtain ⟨v1, v2, -, k2, k3, k4, k5, -⟩ := bb_within hmu hL h1 h2 h3
    exact ⟨v2, k2, k3, k4.trans k5⟩
  obtain ⟨h1, h2, h3⟩ := h [] x2 t x1 u q rfl
  obtain ⟨v1, v2, k1, k2, k3, k4, k5, k6, k7⟩ := bb_within hmu hL h1 h2 h3
  have hpos : 0 < mu / Ly ^ 2 := by positivity
  have hv1 : 0 < v1 := by linarith
  obtain ⟨p1, p2⟩ := preBBs_within (init0 := init0) (b := b) heps _ hall
  have k1' : bb1 (bbPair G dir x2 t x1 u q) = .fin v1 := k1
  have k2' : bb2 (bbPair G dir x2 t x1 u q) = .fin v2 := k2
  by_cases c1 : b.ratio = 0
  · refine ⟨v1, v1, v2, by rw [bbCand]; simp only [if_pos c1]; exact k1, by linarith, k5, le_rfl, k6, k7, fun _ => rfl, fun e => absurd (c1.symm.trans e) zero_ne_one, fun e => absurd c1 e⟩
  · by_cases c2 : b.ratio = 1 ∧ b.num = 0
    · refine ⟨v2, v1, v2, by rw [bbCand]; simp only [if_neg c1, if_pos c2]; exact k2, by linarith, k4.trans k5, k4, k6, k7, fun e => absurd e c1, fun _ _ => rfl, fun _ e => absurd c2 e⟩
    · obtain ⟨w, w1, w2, w3, ⟨e, w4, w5⟩, w6⟩ := foldl_min ((preBBs G dir b init0 eps ((x2, t) :: (x1, u) :: q)).take b.num) (fun e he => p1 e (List.mem_of_mem_take he)) (bb2 (bbPair G dir x2 t x1 u q))
        (hall [] x2 t x1 u q rfl)
      have hwv : w ≤ v2 := w6 _ List.mem_cons_self v2 k2'
      have htk : (preBBs G dir b init0 eps ((x2, t) :: (x1, u) :: q)).take b.num = preBBs G dir b init0 eps ((x2, t) :: (x1, u) :: q) := by
        rw [p2, List.take_take, min_self]
      have hval : bbCand G dir b init0 eps ((x2, t) :: (x1, u) :: q) = .fin (if w < b.ratio * v1 then w else v1) := by
        rw [bbCand]
        simp only [if_neg c1, if_neg c2, w1, k1']
        rw [Ext.div, divExt, if_neg hv1.ne', Ext.lt]
        simp only [decide_eq_true_eq, div_lt_iff₀ hv1]
        split <;> rfl
      refine ⟨_, v1, v2, hval, ?_, ?_, ?_, k6, k7, fun e => absurd e c1, fun e1 e2 => absurd ⟨e1, e2⟩ c2, fun _ _ => ⟨w, hwv, ?_, ?_, rfl⟩⟩
      · split <;> linarith
      · split <;> linarith
      · split <;> linarith
      · intro e' he'
        have he2 : e' ∈ preBBs G dir b init0 eps ((x2, t) :: (x1, u) :: q) := by rw [p2]; exact he'
        obtain ⟨a, ha, -⟩ := p1 e' he2
        exact ⟨a, ha, w6 e' (List.mem_cons_of_mem _ (by rw [htk]; exact he2)) a ha⟩
      · rcases List.mem_cons.mp w4 with k | k
        · left; rw [k, k2'] at w5; injection w5 with w5; exact w5.symm
        · right; rw [w5, htk, p2] at k; exact k

/-! ### A concrete run: `2x²` -/

noncomputable def quadFOOracle (k : FOKind) (b : BBCfg) : Oracle ℝ ℝ := { quadOracle 1 with dir := foDir quadGeo (1 / 100) 0 k, init := bbStep quadGeo (foDir quadGeo (1 / 100) 0 k) b 1 (1 / 10 ^ 16) }

theorem quad_foArmijo {k : FOKind} (hk : k.covered) (b : BBCfg) (n : ℕ) : FOArmijo quadGeo k (1 / 100) (quadCfg 0 n) (quadFOOracle k b) 0 1 0 4 4 4 1 (4 / 10 ^ 6) where
  steps :=
    { conv := fun x η => by
        simp only [quadGeo, LinearIsometryEquiv.coe_refl, id, RCLike.inner_apply, Real.norm_eq_abs, sq_abs, conj_trivial]
        exact le_of_eq (by ring)
      lip := fun x η => by
        simp only [quadGeo, LinearIsometryEquiv.coe_refl, id]
        rw [show 4 * (x + η) - 4 * x = 4 * η by ring, norm_mul]; norm_num
      mupos := by norm_num
      Lypos := by norm_num }
  pre x u := by simp [quadGeo]
  p2pos := zero_le_one
  cov := hk
  cpos := by norm_num
  c1 := by norm_num
  below x := by simp only [quadGeo]; positivity
  upper := (quad_lrArmijo (fun _ => 0) n).upper
  Lpos := by norm_num
  dir := rfl
  kind := rfl
  alpha := by norm_num [quadCfg]
  alpha1 := by norm_num [quadCfg]
  r1 := by norm_num [quadCfg]
  r11 := by norm_num [quadCfg]
  r2 := by norm_num [quadCfg]
  minPos := by norm_num [quadCfg]
  minSmall := by norm_num [quadCfg, safeStep, foHi]
  nocall := rfl
  thresh := Or.inr ⟨rfl, by norm_num [quadGeo], by norm_num [quadGeo, quadCfg]⟩
  thrpos := by norm_num
  acc := by simp only [quadCfg, zero_mul]; positivity
  tolpos := by norm_num [quadCfg]
  min0 := rfl
  gap h := by simp [quadCfg] at h

example {k : FOKind} (hk : k.covered) (b : BBCfg) : ∃ n s, lsRun quadGeo.land (quadCfg 0 n) (quadFOOracle k b) 1 (n + 1) = .finished s ∧ ‖quadGeo.grad s.x‖ < 4 / 10 ^ 6 := by
  set lo := anyFloor 1 (1 + √(2 * 4 * (quadGeo.f 1 - 0))) (1 / 10 ^ 16) with hlo
  have h6 : 0 < lo := lt_min one_pos (lt_min (by positivity) (by positivity))
  have hg : 0 < gain (quadCfg 0 0).ls 4 (1 / 100) (foHi 1 (4 / 4)) lo (4 / 10 ^ 6) := by
    have h3 : 0 < (quadCfg 0 0).ls.r1 * safeStep (quadCfg 0 0).ls 4 (1 / 100) (foHi 1 (4 / 4)) := by norm_num [quadCfg, safeStep, foHi]
    have h4 : 0 < (quadCfg 0 0).ls.alpha := by norm_num [quadCfg]
    have h7 := lt_min h6 h3
    unfold gain; positivity
  obtain ⟨n, hn⟩ := exists_nat_gt ((quadGeo.f 1 - 0) / gain (quadCfg 0 0).ls 4 (1 / 100) (foHi 1 (4 / 4)) lo (4 / 10 ^ 6))
  rw [div_lt_iff₀ hg] at hn
  obtain ⟨s, e, _, _, _, h, _⟩ := C117_bb (quad_foArmijo hk b n) b (init0 := 1) (eps := 1 / 10 ^ 16) one_pos (by norm_num) le_rfl (fun p => rfl) hn
  refine ⟨n, s, e, ?_⟩
  rcases h with h | h
  · simp [quadFOOracle, quadOracle] at h
  · exact h

/-- The hypotheses of `C117_bb_value`: a step of steepest descent on `2x²`. -/
example (b : BBCfg) : ∃ v, bbCand quadGeo (fun _ => -4) b 1 (1 / 10 ^ 16) [(1 / 2, 1 / 8), (1, 0)] = .fin v ∧ v = 1 / 4 := by
  have hpair : bbPair quadGeo (fun _ => -4) (1 / 2) (1 / 8) 1 0 [] = (-(1 / 2), -2) := by
    simp only [bbPair, quadGeo, LinearIsometryEquiv.coe_refl, id, smul_eq_mul]; norm_num
  obtain ⟨v, _, _, e, h1, h2, _⟩ := C117_bb_value (G := quadGeo) (dir := fun _ => -4) b (init0 := 1) (eps := 1 / 10 ^ 16) (mu := 4) (Ly := 4) (by norm_num) (by norm_num) (by norm_num)
    (x2 := 1 / 2) (t := 1 / 8) (x1 := 1) (u := 0) (q := []) (by
      intro q₀ y2 r y1 v q' e
      match q₀, e with
      | [], e =>
        simp only [List.nil_append, List.cons.injEq, Prod.mk.injEq] at e
        obtain ⟨⟨rfl, rfl⟩, ⟨rfl, rfl⟩, rfl⟩ := e
        rw [hpair]
        norm_num [RCLike.inner_apply, abs_of_neg, abs_of_pos]
      | [_], e => simp at e
      | _ :: _ :: _, e => simp at e)
  exact ⟨v, e, le_antisymm h2 (by norm_num at h1; linarith)⟩

/-- The default solver configuration is one of them. -/
example : (FOKind.rcg .hestenesStiefel).covered ∧ FOKind.rsd.covered := ⟨Or.inl rfl, trivial⟩

end Verif.Solver
