import Verif.Solver.InitRule
import Verif.Props.Converge

/-!
# C113: the default initial steps do not shrink
-/

set_option linter.unusedSectionVars false
set_option linter.unusedVariables false

namespace Verif.Solver

variable {X V : Type}

/-! ## Specification -/

/-- Gradients of points that are not worse than the starting point are bounded. -/
def GradBound (M : Land X V) (x0 : X) (Gmax : ℝ) : Prop := ∀ x, M.f x ≤ M.f x0 → M.gnorm x ≤ Gmax

/-- A lower bound for the initial steps of a monotone Armijo run: it does not depend on the number of iterations, on the machine precision or on the tolerance. -/
noncomputable def stepFloor (P : LSParams ℝ) (init0 Gmax L c1 c2 : ℝ) : ℝ :=
  min (min init0 (init0 / Gmax)) (min 1 (min (P.r1 * safeStep P L c1 c2) (101 / 50 * P.alpha * (c1 / (100 * L * c2 ^ 2)))))

/-- Hypotheses of C99 without those on the initial steps, which are computed by the function `rl` of the past. -/
structure StepSetting (M : Land X V) (C : LSCfg) (O : Oracle X V) (nrm : X → V → ℝ) (Good : Past X → Prop) (x0 : X) (fmin L c1 c2 thr Gmax init0 : ℝ) (rl : Past X → ℝ) : Prop where
  below : BoundedBelow M fmin
  upper : UpperModel M nrm L
  dirs : ∀ x t past, Good ((x, t) :: past) → thr ≤ M.gnorm x → M.slope x (O.dir ((x, t) :: past)) ≤ -c1 * M.gnorm x ^ 2 ∧
    nrm x (O.dir ((x, t) :: past)) ≤ c2 * M.gnorm x ∧ 0 ≤ nrm x (O.dir ((x, t) :: past))
  good0 : Good [(x0, 0)]
  goodS : ∀ x u past t, Good ((x, u) :: past) → thr ≤ M.gnorm x → 0 < t →
    (∀ δ, (∀ r, 0 < r → r ≤ δ → M.f (M.move x (O.dir ((x, u) :: past)) r) ≤ M.f x + C.ls.alpha * r * M.slope x (O.dir ((x, u) :: past))) →
      min (O.init ((x, u) :: past)) (C.ls.r1 * δ) ≤ t) →
    M.f (M.move x (O.dir ((x, u) :: past)) t) ≤ M.f x + C.ls.alpha * t * M.slope x (O.dir ((x, u) :: past)) →
    Good ((M.move x (O.dir ((x, u) :: past)) t, t) :: (x, u) :: past)
  rule : ∀ p, O.init p = rl p
  mono : C.run.numPre ≤ 1
  init0 : 0 < init0
  bound : GradBound M x0 Gmax
  Gpos : 0 < Gmax
  Lpos : 0 < L
  c1pos : 0 < c1
  c2pos : 0 < c2
  kind : C.kind = .armijo
  alpha : 0 < C.ls.alpha
  alpha1 : C.ls.alpha < 1
  r1 : 0 < C.ls.r1
  r11 : C.ls.r1 < 1
  r2 : C.ls.r2 < 1
  minPos : 0 < C.ls.minStep
  minSmall : C.ls.minStep ≤ C.ls.r1 * safeStep C.ls L c1 c2
  nocall : O.callback = none
  thresh : Threshold C (M.gnorm x0) thr
  thrpos : 0 < thr
  acc : C.accuracy * (M.gnorm x0 + C.tol) ≤ thr
  tolpos : 0 < C.tol
  g0 : 0 ≤ M.gnorm x0
  min0 : C.run.minIter = 0
  gap : C.run.record = true → 0 < C.run.outputGap

/-! ## Proof -/

/-- What is known about the last step of a past. -/
structure StepGood (M : Land X V) (C : LSCfg) (O : Oracle X V) (nrm : X → V → ℝ) (x0 : X) (c1 c2 lo thr : ℝ) (p : Past X) : Prop where
  val : ∀ x t q, p = (x, t) :: q → M.f x ≤ M.f x0
  all : ∀ q₀ x t q, p = q₀ ++ (x, t) :: q → q ≠ [] → lo ≤ t
  last : ∀ x2 t x1 u q, p = (x2, t) :: (x1, u) :: q → lo ≤ t ∧ x2 = M.move x1 (O.dir ((x1, u) :: q)) t ∧ thr ≤ M.gnorm x1 ∧
    M.f x2 ≤ M.f x1 + C.ls.alpha * t * M.slope x1 (O.dir ((x1, u) :: q)) ∧ M.slope x1 (O.dir ((x1, u) :: q)) ≤ -c1 * M.gnorm x1 ^ 2 ∧
    nrm x1 (O.dir ((x1, u) :: q)) ≤ c2 * M.gnorm x1 ∧ 0 ≤ nrm x1 (O.dir ((x1, u) :: q))

section

variable {M : Land X V} {C : LSCfg} {O : Oracle X V} {nrm : X → V → ℝ} {Good : Past X → Prop} {x0 : X} {fmin L c1 c2 thr Gmax init0 eps : ℝ}
  (S : StepSetting M C O nrm Good x0 fmin L c1 c2 thr Gmax init0 (quadIntMod M O.dir init0 eps))
include S

theorem StepSetting.safe_pos : 0 < safeStep C.ls L c1 c2 := by
  have h3 := S.Lpos; have h4 := S.c1pos; have h5 := S.c2pos; have h7 : 0 < 1 - C.ls.alpha := sub_pos.mpr S.alpha1
  unfold safeStep; positivity

theorem StepSetting.floor_pos : 0 < stepFloor C.ls init0 Gmax L c1 c2 := by
  have h1 := S.init0; have h2 := S.Gpos; have h3 := S.Lpos; have h4 := S.c1pos; have h5 := S.c2pos; have h6 := S.alpha; have h7 := S.r1
  have h8 := S.safe_pos
  exact lt_min (lt_min h1 (by positivity)) (lt_min one_pos (lt_min (by positivity) (by positivity)))

/-- The prediction by interpolation is at least the bound. -/
theorem StepSetting.predict {x1 : X} {d : V} {t : ℝ} (ht : stepFloor C.ls init0 Gmax L c1 c2 ≤ t) (hg : thr ≤ M.gnorm x1)
    (hdec : M.f (M.move x1 d t) ≤ M.f x1 + C.ls.alpha * t * M.slope x1 d) (hs : M.slope x1 d ≤ -c1 * M.gnorm x1 ^ 2)
    (hn : nrm x1 d ≤ c2 * M.gnorm x1) (hn0 : 0 ≤ nrm x1 d) :
    M.slope x1 d ≠ 0 ∧ stepFloor C.ls init0 Gmax L c1 c2 ≤ 101 / 100 * 2 * (M.f (M.move x1 d t) - M.f x1) / M.slope x1 d := by
  have hgp : 0 < M.gnorm x1 := lt_of_lt_of_le S.thrpos hg
  have hc1 := S.c1pos
  have hc2 := S.c2pos
  have hL := S.Lpos
  have hσ : 0 < -M.slope x1 d := by
    have : 0 < c1 * M.gnorm x1 ^ 2 := by positivity
    linarith
  have ht0 : 0 < t := lt_of_lt_of_le S.floor_pos ht
  refine ⟨by intro h; rw [h] at hσ; simp at hσ, ?_⟩
  have hq : 101 / 100 * 2 * (M.f (M.move x1 d t) - M.f x1) / M.slope x1 d = 101 / 50 * (M.f x1 - M.f (M.move x1 d t)) / -M.slope x1 d := by
    rw [div_neg, ← neg_div]; congr 1; ring
  rw [hq, le_div_iff₀ hσ]
  set σ := -M.slope x1 d with hσd
  by_cases hc : t ≤ c1 / (100 * L * c2 ^ 2)
  · have hU := S.upper x1 d t ht0.le
    have h3 : c1 * nrm x1 d ^ 2 ≤ c2 ^ 2 * σ := by
      have e1 : nrm x1 d ^ 2 ≤ (c2 * M.gnorm x1) ^ 2 := pow_le_pow_left₀ hn0 hn 2
      have e2 : c1 * nrm x1 d ^ 2 ≤ c1 * (c2 * M.gnorm x1) ^ 2 := mul_le_mul_of_nonneg_left e1 hc1.le
      have e3 : c1 * (c2 * M.gnorm x1) ^ 2 = c2 ^ 2 * (c1 * M.gnorm x1 ^ 2) := by ring
      have e4 : c2 ^ 2 * (c1 * M.gnorm x1 ^ 2) ≤ c2 ^ 2 * σ := mul_le_mul_of_nonneg_left (by linarith) (by positivity)
      linarith
    rw [le_div_iff₀ (by positivity)] at hc
    have h4 : L / 2 * (t * nrm x1 d) ^ 2 ≤ t * σ / 200 := by
      have e1 : c1 * (L / 2 * (t * nrm x1 d) ^ 2) ≤ L / 2 * t ^ 2 * (c2 ^ 2 * σ) := by
        calc c1 * (L / 2 * (t * nrm x1 d) ^ 2) = L / 2 * t ^ 2 * (c1 * nrm x1 d ^ 2) := by ring
          _ ≤ _ := mul_le_mul_of_nonneg_left h3 (by positivity)
      have e2 : L / 2 * t ^ 2 * (c2 ^ 2 * σ) = t * σ / 200 * (t * (100 * L * c2 ^ 2)) := by ring
      have e3 : t * σ / 200 * (t * (100 * L * c2 ^ 2)) ≤ t * σ / 200 * c1 := mul_le_mul_of_nonneg_left hc (by positivity)
      have e4 : c1 * (L / 2 * (t * nrm x1 d) ^ 2) ≤ c1 * (t * σ / 200) := by linarith
      exact le_of_mul_le_mul_left e4 hc1
    have h5 : stepFloor C.ls init0 Gmax L c1 c2 * σ ≤ t * σ := mul_le_mul_of_nonneg_right ht hσ.le
    have h6 : t * M.slope x1 d = -(t * σ) := by rw [hσd]; ring
    have h7 : 0 < t * σ := mul_pos ht0 hσ
    linarith
  · rw [not_le] at hc
    have hfl : stepFloor C.ls init0 Gmax L c1 c2 ≤ 101 / 50 * C.ls.alpha * (c1 / (100 * L * c2 ^ 2)) :=
      (min_le_right _ _).trans ((min_le_right _ _).trans (min_le_right _ _))
    have h1 : C.ls.alpha * (c1 / (100 * L * c2 ^ 2)) * σ ≤ C.ls.alpha * t * σ :=
      mul_le_mul_of_nonneg_right (mul_le_mul_of_nonneg_left hc.le S.alpha.le) hσ.le
    have h2 := mul_le_mul_of_nonneg_right hfl hσ.le
    have h3 : C.ls.alpha * t * M.slope x1 d = -(C.ls.alpha * t * σ) := by rw [hσd]; ring
    have h4 : 101 / 50 * C.ls.alpha * (c1 / (100 * L * c2 ^ 2)) * σ = 101 / 50 * (C.ls.alpha * (c1 / (100 * L * c2 ^ 2)) * σ) := by ring
    linarith

/-- The initial steps of the rule are at least the bound. -/
theorem StepSetting.init_ge {x : X} {t : ℝ} {p : Past X} (h : StepGood M C O nrm x0 c1 c2 (stepFloor C.ls init0 Gmax L c1 c2) thr ((x, t) :: p)) (hg : thr ≤ M.gnorm x) :
    stepFloor C.ls init0 Gmax L c1 c2 ≤ O.init ((x, t) :: p) := by
  rw [S.rule]
  cases p with
  | nil =>
    simp only [quadIntMod, ruleStep, initialStep, if_true, Ext.toReal]
    exact (min_le_left _ _).trans (min_le_left _ _)
  | cons y q =>
    obtain ⟨x1, u⟩ := y
    obtain ⟨k1, k2, k3, k4, k5, k6, k7⟩ := h.last x t x1 u q rfl
    rw [k2] at k4
    obtain ⟨hs, hp⟩ := S.predict k1 k3 k4 k5 k6 k7
    rw [← k2] at hp
    have hgp : 0 < M.gnorm x := lt_of_lt_of_le S.thrpos hg
    set lo := stepFloor C.ls init0 Gmax L c1 c2 with hlo
    have hlo0 : 0 < lo := S.floor_pos
    have hlo1 : lo ≤ 1 := (min_le_right _ _).trans (min_le_left _ _)
    have hfall : lo ≤ init0 / M.gnorm x := by
      have hb := S.bound x (h.val x t _ rfl)
      refine ((min_le_left _ _).trans (min_le_right _ _)).trans ?_
      exact div_le_div_of_nonneg_left S.init0.le hgp hb
    simp only [quadIntMod, ruleStep, quadIntModCand, quadPred, if_neg hs, capOne]
    set sl := M.slope x1 (O.dir ((x1, u) :: q)) with hsl
    set v := 101 / 100 * 2 * (M.f x - M.f x1) / sl with hv
    set w := 2 * (M.f x - M.f x1) / sl with hw
    set cnd := if 1 < v then 1 else v with hcnd
    have hcl : lo ≤ cnd := by rw [hcnd]; split <;> assumption
    simp only [initialStep, Nat.add_one_ne_zero, if_false]
    have key : ∀ z, lo ≤ z → lo ≤ (if (Ext.fin z).lt (Ext.fin eps) = true then divExt init0 (M.gnorm x) else Ext.fin z).toReal := by
      intro z hz
      split
      · rw [divExt, if_neg hgp.ne']; exact hfall
      · exact hz
    split
    · rename_i hlt
      simp only [Ext.lt, Ext.div100, decide_eq_true_eq] at hlt
      exact key w (by linarith)
    · exact key cnd hcl

theorem StepSetting.reach : ReachSetting M C O nrm (fun p => Good p ∧ StepGood M C O nrm x0 c1 c2 (stepFloor C.ls init0 Gmax L c1 c2) thr p) x0 fmin L c1 c2
    (stepFloor C.ls init0 Gmax L c1 c2) thr where
  below := S.below
  upper := S.upper
  dirs := fun x t past h hg => S.dirs x t past h.1 hg
  init := fun x t past h hg => S.init_ge h.2 hg
  good0 := by
    refine ⟨S.good0, ⟨fun x t q e => by simp at e; obtain ⟨⟨rfl, rfl⟩, rfl⟩ := e; exact le_rfl, fun q₀ x t q e hq => ?_, fun x2 t x1 u q e => by simp at e⟩⟩
    exfalso
    have hl := congrArg List.length e
    have := List.length_pos_of_ne_nil hq
    simp only [List.length_append, List.length_cons, List.length_nil] at hl
    omega
  goodS := by
    intro x u past t h hg ht hmin hloc hdec
    have hd := hdec S.mono
    obtain ⟨d1, d2, d3⟩ := S.dirs x u past h.1 hg
    have hin := S.init_ge h.2 hg
    have hlot : stepFloor C.ls init0 Gmax L c1 c2 ≤ t := by
      refine le_trans (le_min hin ?_) hmin
      exact (min_le_right _ _).trans ((min_le_right _ _).trans (min_le_left _ _))
    refine ⟨S.goodS x u past t h.1 hg ht hloc hd, ⟨?_, ?_, ?_⟩⟩
    · intro y r q e
      simp only [List.cons.injEq, Prod.mk.injEq] at e
      obtain ⟨⟨rfl, rfl⟩, rfl⟩ := e
      have h1 := h.2.val x u past rfl
      have hneg : C.ls.alpha * t * M.slope x (O.dir ((x, u) :: past)) ≤ 0 := by
        refine mul_nonpos_of_nonneg_of_nonpos (mul_nonneg S.alpha.le ht.le) (d1.trans ?_)
        have := S.c1pos
        have : 0 ≤ c1 * M.gnorm x ^ 2 := by positivity
        linarith
      linarith
    · intro q₀ y r q e hq
      cases q₀ with
      | nil =>
        simp only [List.nil_append, List.cons.injEq, Prod.mk.injEq] at e
        rw [← e.1.2]; exact hlot
      | cons z q₀ =>
        simp only [List.cons_append, List.cons.injEq] at e
        exact h.2.all q₀ y r q e.2 hq
    · intro x2 r x1 v q e
      simp only [List.cons.injEq, Prod.mk.injEq] at e
      obtain ⟨⟨rfl, rfl⟩, ⟨rfl, rfl⟩, rfl⟩ := e
      exact ⟨hlot, rfl, hg, hd, d1, d2, d3⟩
  Lpos := S.Lpos
  c1pos := S.c1pos
  c2pos := S.c2pos
  kind := S.kind
  alpha := S.alpha
  alpha1 := S.alpha1
  r1 := S.r1
  r11 := S.r11
  r2 := S.r2
  minPos := S.minPos
  minSmall := S.minSmall
  lopos := S.floor_pos
  nocall := S.nocall
  thresh := S.thresh
  thrpos := S.thrpos
  acc := S.acc
  tolpos := S.tolpos
  g0 := S.g0
  min0 := S.min0
  gap := S.gap

/-! ## C113 -/

/-- **C113.** A monotone Armijo run with the default rule for the initial step and gradient related directions, on an objective that is bounded below and has a quadratic upper model, ends by its
gradient test (or the time limit) with every search successful. All its steps were at least a bound that depends only on the constants of the problem, and the number of
iterations is at most the total decrease divided by a constant. -/
theorem C113_default_steps (hN : M.f x0 - fmin < C.run.maxIter * gain C.ls L c1 c2 (stepFloor C.ls init0 Gmax L c1 c2) thr) :
    ∃ s, lsRun M C O x0 (C.run.maxIter + 1) = .finished s ∧ s.rs.ok = true ∧ s.rs.f1 = M.f s.x ∧
      s.rs.iter * gain C.ls L c1 c2 (stepFloor C.ls init0 Gmax L c1 c2) thr ≤ M.f x0 - M.f s.x ∧
      (O.timeUp s.rs.iter = true ∨ M.gnorm s.x < thr) ∧ Good s.past ∧
      (∀ q₀ x2 t q, s.past = q₀ ++ (x2, t) :: q → q ≠ [] → stepFloor C.ls init0 Gmax L c1 c2 ≤ t) := by
  have hmax : max 1 C.run.numPre = 1 := by have := S.mono; omega
  obtain ⟨s, e1, e2, e3, e4, e5, e6, e7⟩ := armijo_converges_reach S.reach (by rw [hmax]; simpa using hN)
  rw [hmax] at e4
  exact ⟨s, e1, e2, e3, by simpa using e4, e5, e6, e7.all⟩

end

/-- A lower bound for the initial steps of an arbitrary rule. -/
noncomputable def anyFloor (init0 Gmax eps : ℝ) : ℝ := min init0 (min eps (init0 / Gmax))

theorem any_floor {M : Land X V} {dir : Past X → V} {x0 : X} {Gmax init0 eps : ℝ} {cand : Past X → Ext ℝ} (h0 : 0 < init0) (hb : GradBound M x0 Gmax) {x : X} {t : ℝ} {p : Past X}
    (hgp : 0 < M.gnorm x) (hf : M.f x ≤ M.f x0) (hs : ∀ x1 u q, p = (x1, u) :: q → M.slope x1 (dir ((x1, u) :: q)) ≠ 0) (hc : ∀ x1 u q, p = (x1, u) :: q → ∃ v, cand ((x, t) :: p) = .fin v) :
    anyFloor init0 Gmax eps ≤ ruleStep M dir init0 eps cand ((x, t) :: p) := by
  cases p with
  | nil =>
    simp only [ruleStep, initialStep, if_true, Ext.toReal]
    exact min_le_left _ _
  | cons y q =>
    obtain ⟨x1, u⟩ := y
    have hfall : anyFloor init0 Gmax eps ≤ init0 / M.gnorm x :=
      ((min_le_right _ _).trans (min_le_right _ _)).trans (div_le_div_of_nonneg_left h0.le hgp (hb x hf))
    have hs := hs x1 u q rfl
    obtain ⟨v, hv⟩ := hc x1 u q rfl
    simp only [ruleStep, quadPred, if_neg hs, hv]
    simp only [initialStep, Nat.add_one_ne_zero, if_false]
    have key : ∀ z, anyFloor init0 Gmax eps ≤ (if (Ext.fin z).lt (Ext.fin eps) = true then divExt init0 (M.gnorm x) else Ext.fin z).toReal := by
      intro z
      split
      · rw [divExt, if_neg hgp.ne']; exact hfall
      · rename_i hz
        simp only [Ext.lt, decide_eq_true_eq, not_lt] at hz
        exact ((min_le_right _ _).trans (min_le_left _ _)).trans hz
    split
    · exact key _
    · exact key v

/-- The setting of C99 for an arbitrary rule for the initial steps. -/
theorem StepSetting.reach_any {M : Land X V} {C : LSCfg} {O : Oracle X V} {nrm : X → V → ℝ} {Good : Past X → Prop} {x0 : X} {fmin L c1 c2 thr Gmax init0 eps : ℝ} {cand : Past X → Ext ℝ}
    (S : StepSetting M C O nrm Good x0 fmin L c1 c2 thr Gmax init0 (ruleStep M O.dir init0 eps cand)) (heps : 0 < eps) 
    (hcand : ∀ x2 t x1 u q, Good ((x2, t) :: (x1, u) :: q) → thr ≤ M.gnorm x2 → M.slope x1 (O.dir ((x1, u) :: q)) ≠ 0 → ∃ v, cand ((x2, t) :: (x1, u) :: q) = .fin v) :
    ReachSetting M C O nrm (fun p => Good p ∧ (∀ x t q, p = (x, t) :: q → M.f x ≤ M.f x0) ∧
      ∀ x2 t x1 u q, p = (x2, t) :: (x1, u) :: q → M.slope x1 (O.dir ((x1, u) :: q)) ≠ 0) x0 fmin L c1 c2 (anyFloor init0 Gmax eps) thr := by
  have hslope : ∀ x t past, Good ((x, t) :: past) → thr ≤ M.gnorm x → M.slope x (O.dir ((x, t) :: past)) < 0 := by
    intro x t past h hg
    have h1 := (S.dirs x t past h hg).1
    have h2 := S.c1pos
    have h3 : 0 < M.gnorm x := lt_of_lt_of_le S.thrpos hg
    have : 0 < c1 * M.gnorm x ^ 2 := by positivity
    linarith
  exact
    { below := S.below, upper := S.upper, dirs := fun x t past h hg => S.dirs x t past h.1 hg
      init := by
        intro x t p h hg
        rw [S.rule]
        exact any_floor S.init0 S.bound (lt_of_lt_of_le S.thrpos hg) (h.2.1 x t _ rfl) (fun x1 u q e => h.2.2 x t x1 u q (by rw [e]))
          (fun x1 u q e => by subst e; exact hcand x t x1 u q h.1 hg (h.2.2 x t x1 u q rfl))
      good0 := ⟨S.good0, fun x t q e => by simp at e; obtain ⟨⟨rfl, rfl⟩, rfl⟩ := e; exact le_rfl, fun x2 t x1 u q e => by simp at e⟩
      goodS := by
        intro x u past t h hg ht _ hloc hdec
        have hd := hdec S.mono
        have hsl := hslope x u past h.1 hg
        refine ⟨S.goodS x u past t h.1 hg ht hloc hd, ?_, ?_⟩
        · intro y r q e
          simp only [List.cons.injEq, Prod.mk.injEq] at e
          obtain ⟨⟨rfl, rfl⟩, rfl⟩ := e
          have h1 := h.2.1 x u past rfl
          have : C.ls.alpha * t * M.slope x (O.dir ((x, u) :: past)) ≤ 0 := mul_nonpos_of_nonneg_of_nonpos (mul_nonneg S.alpha.le ht.le) hsl.le
          linarith
        · intro x2 r x1 v q e
          simp only [List.cons.injEq, Prod.mk.injEq] at e
          obtain ⟨⟨rfl, rfl⟩, ⟨rfl, rfl⟩, rfl⟩ := e
          exact hsl.ne
      Lpos := S.Lpos, c1pos := S.c1pos, c2pos := S.c2pos, kind := S.kind, alpha := S.alpha, alpha1 := S.alpha1, r1 := S.r1, r11 := S.r11, r2 := S.r2
      minPos := S.minPos, minSmall := S.minSmall, lopos := lt_min S.init0 (lt_min heps (div_pos S.init0 S.Gpos)), nocall := S.nocall, thresh := S.thresh, thrpos := S.thrpos, acc := S.acc
      tolpos := S.tolpos, g0 := S.g0, min0 := S.min0, gap := S.gap }

/-- **C113, any rule.** The same conclusion with an arbitrary rule for the initial step, as long as it produces numbers (not NaN or infinity): the safeguard of the solver bounds the steps below. -/
theorem C113_any_rule {M : Land X V} {C : LSCfg} {O : Oracle X V} {nrm : X → V → ℝ} {Good : Past X → Prop} {x0 : X} {fmin L c1 c2 thr Gmax init0 eps : ℝ} {cand : Past X → Ext ℝ}
    (S : StepSetting M C O nrm Good x0 fmin L c1 c2 thr Gmax init0 (ruleStep M O.dir init0 eps cand)) (heps : 0 < eps) 
    (hcand : ∀ x2 t x1 u q, Good ((x2, t) :: (x1, u) :: q) → thr ≤ M.gnorm x2 → M.slope x1 (O.dir ((x1, u) :: q)) ≠ 0 → ∃ v, cand ((x2, t) :: (x1, u) :: q) = .fin v)
    (hN : M.f x0 - fmin < C.run.maxIter * gain C.ls L c1 c2 (anyFloor init0 Gmax eps) thr) :
    ∃ s, lsRun M C O x0 (C.run.maxIter + 1) = .finished s ∧ s.rs.ok = true ∧ s.rs.f1 = M.f s.x ∧
      s.rs.iter * gain C.ls L c1 c2 (anyFloor init0 Gmax eps) thr ≤ M.f x0 - M.f s.x ∧
      (O.timeUp s.rs.iter = true ∨ M.gnorm s.x < thr) ∧ Good s.past := by
  have R := S.reach_any heps hcand
  have hmax : max 1 C.run.numPre = 1 := by have := S.mono; omega
  obtain ⟨s, e1, e2, e3, e4, e5, e6, -⟩ := armijo_converges_reach R (by rw [hmax]; simpa using hN)
  rw [hmax] at e4
  exact ⟨s, e1, e2, e3, by simpa using e4, e5, e6⟩

/-! ### A concrete run: steepest descent on `2x²` with the default initial steps -/

noncomputable def quadDef : Oracle ℝ ℝ := { quadOracle 1 with init := quadIntMod quadLand (quadOracle 1).dir 1 (1 / 10 ^ 16) }

theorem quad_step (x0 : ℝ) (hx : x0 ≠ 0) (n : ℕ) :
    StepSetting quadLand (quadCfg 0 n) quadDef (fun _ d => |d|) (fun _ => True) x0 0 4 1 1 (1 / 10 ^ 6 * |4 * x0|) |4 * x0| 1 (quadIntMod quadLand quadDef.dir 1 (1 / 10 ^ 16)) := by
  have hp : 0 < |4 * x0| := abs_pos.mpr (by simpa using hx)
  exact
  { below := quad_below, upper := quad_upper, dirs := fun x t past _ _ => quad_related 1 x t past, good0 := trivial, goodS := fun _ _ _ _ _ _ _ _ _ => trivial
    rule := fun _ => rfl, mono := le_rfl, init0 := one_pos
    bound := fun x h => by
      simp only [quadLand] at h ⊢
      rw [abs_mul, abs_mul]
      refine mul_le_mul_of_nonneg_left (sq_le_sq.mp (by linarith)) (abs_nonneg _)
    Gpos := hp
    Lpos := by norm_num, c1pos := by norm_num, c2pos := by norm_num, kind := rfl
    alpha := by norm_num [quadCfg], alpha1 := by norm_num [quadCfg], r1 := by norm_num [quadCfg], r11 := by norm_num [quadCfg]
    r2 := by norm_num [quadCfg], minPos := by norm_num [quadCfg], minSmall := by norm_num [quadCfg, safeStep]
    nocall := rfl
    thresh := Or.inr ⟨rfl, hp, rfl⟩
    thrpos := by positivity
    acc := by simp only [quadCfg, zero_mul]; positivity
    tolpos := by norm_num [quadCfg]
    g0 := abs_nonneg _
    min0 := rfl
    gap := fun h => by simp [quadCfg] at h }

example : ∃ n s, lsRun quadLand (quadCfg 0 n) quadDef 1 (n + 1) = .finished s ∧ quadLand.gnorm s.x < 1 / 10 ^ 6 * |4 * 1| := by
  set lo := stepFloor (quadCfg 0 0).ls 1 |4 * (1 : ℝ)| 4 1 1 with hlo
  have hg : 0 < gain (quadCfg 0 0).ls 4 1 1 lo (1 / 10 ^ 6 * |4 * (1 : ℝ)|) := gain_pos (quad_step 1 one_ne_zero 0).reach
  obtain ⟨n, hn⟩ := exists_nat_gt ((quadLand.f 1 - 0) / gain (quadCfg 0 0).ls 4 1 1 lo (1 / 10 ^ 6 * |4 * (1 : ℝ)|))
  rw [div_lt_iff₀ hg] at hn
  obtain ⟨s, e, _, _, _, h, _⟩ := C113_default_steps (quad_step 1 one_ne_zero n) hn
  refine ⟨n, s, e, ?_⟩
  rcases h with h | h
  · simp [quadDef, quadOracle] at h
  · exact h

end Verif.Solver
