import Verif.Props.LRConverge
import Verif.Props.BBConverge
import Verif.Props.NewtonConverge

/-!
# C127: linear rate of the line-search solvers under a gradient inequality
-/

set_option linter.unusedSectionVars false
set_option linter.unusedVariables false

open scoped RealInnerProductSpace

namespace Verif.Solver

variable {X : Type} {V : Type}

/-! ## Specification -/

/-- The inequality of Polyak and Łojasiewicz on the level set of the start: half the squared gradient norm is at least `kap` times the distance to the least value. Strongly convex functions satisfy it. -/
def GradDominated (M : Land X V) (x0 : X) (fmin kap : ℝ) : Prop := ∀ x, M.f x ≤ M.f x0 → 2 * kap * (M.f x - fmin) ≤ M.gnorm x ^ 2

/-- The factor by which the distance to the least value falls in every iteration. -/
noncomputable def linRate (P : LSParams ℝ) (L c1 c2 lo kap : ℝ) : ℝ := max 0 (1 - 2 * kap * (P.alpha * min lo (P.r1 * safeStep P L c1 c2) * c1))

/-- Every iterate of a past obeys the rate. -/
def RateTrace (M : Land X V) (x0 : X) (fmin q : ℝ) (p : Past X) : Prop := ∀ p₀ x t r, p = p₀ ++ (x, t) :: r → M.f x - fmin ≤ q ^ r.length * (M.f x0 - fmin)

/-! ## Proof -/

/-- What is kept about a past: the rate, and the gain of every step. -/
structure RateGood (M : Land X V) (x0 : X) (fmin q g : ℝ) (p : Past X) : Prop where
  level : ∀ x t r, p = (x, t) :: r → M.f x ≤ M.f x0
  trace : RateTrace M x0 fmin q p
  gain : ∀ p₀ x2 t x1 u r, p = p₀ ++ (x2, t) :: (x1, u) :: r → M.f x2 + g ≤ M.f x1

theorem linRate_lt_one {M : Land X V} {C : LSCfg} {O : Oracle X V} {nrm : X → V → ℝ} {Good : Past X → Prop} {x0 : X} {fmin L c1 c2 lo thr kap : ℝ}
    (S : ReachSetting M C O nrm Good x0 fmin L c1 c2 lo thr) (hk : 0 < kap) : linRate C.ls L c1 c2 lo kap < 1 := by
  have h1 := S.lopos
  have h2 := S.r1
  have h3 := S.Lpos
  have h4 := S.c1pos
  have h5 := S.c2pos
  have h6 := S.alpha
  have h7 : 0 < 1 - C.ls.alpha := sub_pos.mpr S.alpha1
  have h9 : 0 < safeStep C.ls L c1 c2 := by unfold safeStep; positivity
  have h10 : 0 < min lo (C.ls.r1 * safeStep C.ls L c1 c2) := lt_min h1 (mul_pos h2 h9)
  have : 0 < 2 * kap * (C.ls.alpha * min lo (C.ls.r1 * safeStep C.ls L c1 c2) * c1) := by positivity
  unfold linRate
  exact max_lt one_pos (by linarith)

/-- The setting of C99 with the rate added to what is known about a past. -/
theorem ReachSetting.rate {M : Land X V} {C : LSCfg} {O : Oracle X V} {nrm : X → V → ℝ} {Good : Past X → Prop} {x0 : X} {fmin L c1 c2 lo thr kap : ℝ}
    (S : ReachSetting M C O nrm Good x0 fmin L c1 c2 lo thr) (hmono : C.run.numPre ≤ 1) (hk : 0 < kap) (hpl : GradDominated M x0 fmin kap) :
    ReachSetting M C O nrm (fun p => Good p ∧ RateGood M x0 fmin (linRate C.ls L c1 c2 lo kap) (gain C.ls L c1 c2 lo thr) p) x0 fmin L c1 c2 lo thr where
  below := S.below
  upper := S.upper
  dirs := fun x t past h hg => S.dirs x t past h.1 hg
  init := fun x t past h hg => S.init x t past h.1 hg
  good0 := by
    refine ⟨S.good0, ?_, ?_, ?_⟩
    · intro x t r e
      simp only [List.cons.injEq, Prod.mk.injEq] at e
      rw [e.1.1]
    · intro p₀ x t r e
      match p₀, e with
      | [], e =>
        simp only [List.nil_append, List.cons.injEq, Prod.mk.injEq] at e
        rw [← e.1.1, ← e.2]; simp
      | _ :: _, e => simp at e
    · intro p₀ x2 t x1 u r e
      have := congrArg List.length e
      simp at this
      omega
  goodS := by
    intro x u past t h hg ht hstep hloc hdec
    have hd := hdec hmono
    have hsl := (S.dirs x u past h.1 hg).1
    have hinit := S.init x u past h.1 hg
    set tm := min lo (C.ls.r1 * safeStep C.ls L c1 c2) with htm
    have htmt : tm ≤ t := (min_le_min hinit le_rfl).trans hstep
    have h1 := S.lopos
    have h2 := S.r1
    have h3 := S.Lpos
    have h4 := S.c1pos
    have h5 := S.c2pos
    have h6 := S.alpha
    have h7 : 0 < 1 - C.ls.alpha := sub_pos.mpr S.alpha1
    have h9 : 0 < safeStep C.ls L c1 c2 := by unfold safeStep; positivity
    have htm0 : 0 < tm := lt_min h1 (mul_pos h2 h9)
    have hthr := S.thrpos
    have hprod : tm * (c1 * M.gnorm x ^ 2) ≤ t * (-M.slope x (O.dir ((x, u) :: past))) := mul_le_mul htmt (by linarith) (by positivity) ht.le
    have hdrop : M.f (M.move x (O.dir ((x, u) :: past)) t) ≤ M.f x - C.ls.alpha * (tm * (c1 * M.gnorm x ^ 2)) := by
      have := mul_le_mul_of_nonneg_left hprod h6.le
      nlinarith
    have hfx := h.2.level x u past rfl
    have hgain : M.f (M.move x (O.dir ((x, u) :: past)) t) + gain C.ls L c1 c2 lo thr ≤ M.f x := by
      have : gain C.ls L c1 c2 lo thr ≤ C.ls.alpha * (tm * (c1 * M.gnorm x ^ 2)) := by
        have e1 : thr ^ 2 ≤ M.gnorm x ^ 2 := pow_le_pow_left₀ hthr.le hg 2
        have e2 : gain C.ls L c1 c2 lo thr = C.ls.alpha * (tm * (c1 * thr ^ 2)) := by unfold gain; ring
        rw [e2]
        have e3 : c1 * thr ^ 2 ≤ c1 * M.gnorm x ^ 2 := mul_le_mul_of_nonneg_left e1 h4.le
        exact mul_le_mul_of_nonneg_left (mul_le_mul_of_nonneg_left e3 htm0.le) h6.le
      linarith
    have hrate : M.f (M.move x (O.dir ((x, u) :: past)) t) - fmin ≤ linRate C.ls L c1 c2 lo kap * (M.f x - fmin) := by
      have e1 := hpl x hfx
      have e2 : 0 ≤ M.f x - fmin := sub_nonneg.mpr (S.below x)
      have e3 : C.ls.alpha * tm * c1 * (2 * kap * (M.f x - fmin)) ≤ C.ls.alpha * tm * c1 * M.gnorm x ^ 2 := mul_le_mul_of_nonneg_left e1 (by positivity)
      have e4 : M.f (M.move x (O.dir ((x, u) :: past)) t) - fmin ≤ (1 - 2 * kap * (C.ls.alpha * tm * c1)) * (M.f x - fmin) := by nlinarith
      exact e4.trans (mul_le_mul_of_nonneg_right (le_max_right _ _) e2)
    have hq0 : 0 ≤ linRate C.ls L c1 c2 lo kap := le_max_left _ _
    refine ⟨S.goodS x u past t h.1 hg ht hstep hloc hdec, ?_, ?_, ?_⟩
    · intro y r p e
      simp only [List.cons.injEq, Prod.mk.injEq] at e
      rw [← e.1.1]
      have := gain_pos S
      linarith
    · intro p₀ y r p e
      match p₀, e with
      | [], e =>
        simp only [List.nil_append, List.cons.injEq, Prod.mk.injEq] at e
        rw [← e.1.1, ← e.2]
        have := h.2.trace [] x u past rfl
        rw [List.length_cons, pow_succ, mul_comm (_ ^ _), mul_assoc]
        exact hrate.trans (mul_le_mul_of_nonneg_left this hq0)
      | a :: p₀, e =>
        simp only [List.cons_append, List.cons.injEq] at e
        exact h.2.trace p₀ y r p e.2
    · intro p₀ x2 r x1 v p e
      match p₀, e with
      | [], e =>
        simp only [List.nil_append, List.cons.injEq, Prod.mk.injEq] at e
        rw [← e.1.1, ← e.2.1.1]
        exact hgain
      | a :: p₀, e =>
        simp only [List.cons_append, List.cons.injEq] at e
        exact h.2.gain p₀ x2 r x1 v p e.2
  Lpos := S.Lpos
  c1pos := S.c1pos
  c2pos := S.c2pos
  kind := S.kind
  alpha := S.alpha
  alpha1 := S.alpha1
  r1 := S.r1
  r11 := S.r11
  r2 := S.r2
  minPos := S.minPos
  minSmall := S.minSmall
  lopos := S.lopos
  nocall := S.nocall
  thresh := S.thresh
  thrpos := S.thrpos
  acc := S.acc
  tolpos := S.tolpos
  g0 := S.g0
  min0 := S.min0
  gap := S.gap

/-- A list of more than `K + 1` entries has two neighbours with `K` entries behind them. -/
theorem split_at {α : Type*} (l : List α) (K : ℕ) (h : K + 1 < l.length) : ∃ l₀ a b r, l = l₀ ++ a :: b :: r ∧ r.length = K := by
  have h1 : l = l.take (l.length - (K + 2)) ++ l.drop (l.length - (K + 2)) := (List.take_append_drop _ _).symm
  have h2 : (l.drop (l.length - (K + 2))).length = K + 2 := by rw [List.length_drop]; omega
  match hd : l.drop (l.length - (K + 2)), h2 with
  | a :: b :: r, h2 => exact ⟨_, a, b, r, by rw [← hd]; exact h1, by simpa using h2⟩

/-- **C127.** An Armijo run with comparison with the last value, on an objective with a quadratic upper model whose gradient dominates the distance to the least value, with gradient related directions and initial steps
bounded below: the distance to the least value falls in every iteration by the factor `linRate`, and the run ends by its gradient test or the time limit within `K` iterations, as soon as
`linRate ^ K * (f(x0) - fmin) < gain`. The number `K` grows like the logarithm of `1 / thr`. -/
theorem C127_linear_rate {M : Land X V} {C : LSCfg} {O : Oracle X V} {nrm : X → V → ℝ} {Good : Past X → Prop} {x0 : X} {fmin L c1 c2 lo thr kap : ℝ}
    (S : ReachSetting M C O nrm Good x0 fmin L c1 c2 lo thr) (hmono : C.run.numPre ≤ 1) (hk : 0 < kap) (hpl : GradDominated M x0 fmin kap)
    (K : ℕ) (hK : linRate C.ls L c1 c2 lo kap ^ K * (M.f x0 - fmin) < gain C.ls L c1 c2 lo thr) (hmax : K ≤ C.run.maxIter) :
    ∃ s, lsRun M C O x0 (C.run.maxIter + 1) = .finished s ∧ s.rs.ok = true ∧ s.rs.f1 = M.f s.x ∧ s.rs.iter ≤ K ∧ s.past.length = s.rs.iter + 1 ∧
      (O.timeUp s.rs.iter = true ∨ M.gnorm s.x < thr) ∧ Good s.past ∧ RateTrace M x0 fmin (linRate C.ls L c1 c2 lo kap) s.past ∧
      M.f s.x - fmin ≤ linRate C.ls L c1 c2 lo kap ^ s.rs.iter * (M.f x0 - fmin) := by
  have R := S.rate hmono hk hpl
  have hq0 : 0 ≤ linRate C.ls L c1 c2 lo kap := le_max_left _ _
  have hq1 := linRate_lt_one S hk
  have hD : 0 ≤ M.f x0 - fmin := sub_nonneg.mpr (S.below x0)
  have hpre : max 1 C.run.numPre = 1 := by omega
  -- the value at the head of the past
  have head : ∀ s, LSInv M C O (fun p => Good p ∧ RateGood M x0 fmin (linRate C.ls L c1 c2 lo kap) (gain C.ls L c1 c2 lo thr) p) (M.f x0) (gain C.ls L c1 c2 lo thr) thr s →
      M.f s.x - fmin ≤ linRate C.ls L c1 c2 lo kap ^ s.rs.iter * (M.f x0 - fmin) := by
    intro s h
    obtain ⟨t, p, hp⟩ := h.past
    have h1 := h.good.2.trace [] s.x t p hp
    have h2 := h.len
    rw [hp, List.length_cons] at h2
    have : p.length = s.rs.iter := by omega
    rwa [this] at h1
  have hlim : ∀ s, LSInv M C O (fun p => Good p ∧ RateGood M x0 fmin (linRate C.ls L c1 c2 lo kap) (gain C.ls L c1 c2 lo thr) p) (M.f x0) (gain C.ls L c1 c2 lo thr) thr s →
      s.rs.iter ≤ C.run.maxIter → s.rs.isstop = false → s.rs.iter < C.run.maxIter := by
    intro s h hi hst
    by_contra hcon
    have hiter : K ≤ s.rs.iter := by omega
    have hns : ¬ (O.timeUp s.rs.iter = true ∨ M.gnorm s.x < thr) := by
      rw [← h.stop, hst]; simp
    push Not at hns
    obtain ⟨r, -, -, -, r3, -, r5, -⟩ := search_ok R h hns.2
    have hwin := maxPref_window C.run s.rs h.run
    rw [hpre] at hwin
    have hl : 0 < s.rs.hist.length := by rw [h.run.len]; omega
    have hmp : maxPref C.run.numPre s.rs.f1 s.rs.pre = s.rs.f1 := by
      have hh := h.run.head
      cases hx : s.rs.hist with
      | nil => rw [hx] at hl; simp at hl
      | cons a l =>
        rw [hx] at hwin hh
        simp only [List.take_succ_cons, List.take_zero, List.mem_singleton] at hwin
        simp only [List.head?_cons, Option.some.injEq] at hh
        rw [hwin, hh]
    rw [hmp, h.val, r3] at r5
    have h1 := S.below (M.move s.x (O.dir s.past) r.step)
    have h2 := head s h
    have h3 : linRate C.ls L c1 c2 lo kap ^ s.rs.iter * (M.f x0 - fmin) ≤ linRate C.ls L c1 c2 lo kap ^ K * (M.f x0 - fmin) :=
      mul_le_mul_of_nonneg_right (pow_le_pow_of_le_one hq0 hq1.le hiter) hD
    linarith
  obtain ⟨s, e, h, hs, hle⟩ := lsLoop_limited R hlim (C.run.maxIter + 1) (lsInit M C O x0) (init_LSInv R) (Nat.zero_le _) (by show C.run.maxIter < 0 + _; omega)
  refine ⟨s, e, h.ok, h.val, ?_, h.len, h.stop.mp hs, h.good.1, h.good.2.trace, head s h⟩
  by_contra hcon
  obtain ⟨p₀, ⟨x2, t⟩, ⟨x1, u⟩, r, hsplit, hr⟩ := split_at s.past K (by rw [h.len]; omega)
  have h1 := h.good.2.gain p₀ x2 t x1 u r hsplit
  have h2 := h.good.2.trace (p₀ ++ [(x2, t)]) x1 u r (by rw [hsplit]; simp)
  rw [hr] at h2
  have h3 := S.below x2
  linarith

/-- The number of iterations exists for every accuracy. -/
theorem C127_steps_exist {M : Land X V} {C : LSCfg} {O : Oracle X V} {nrm : X → V → ℝ} {Good : Past X → Prop} {x0 : X} {fmin L c1 c2 lo thr kap : ℝ}
    (S : ReachSetting M C O nrm Good x0 fmin L c1 c2 lo thr) (hk : 0 < kap) : ∃ K : ℕ, linRate C.ls L c1 c2 lo kap ^ K * (M.f x0 - fmin) < gain C.ls L c1 c2 lo thr := by
  have hg := gain_pos S
  have hD : 0 ≤ M.f x0 - fmin := sub_nonneg.mpr (S.below x0)
  rcases hD.eq_or_lt with h0 | h0
  · exact ⟨0, by rw [← h0]; simpa using hg⟩
  · obtain ⟨K, hK⟩ := exists_pow_lt_of_lt_one (div_pos hg h0) (linRate_lt_one S hk)
    rw [lt_div_iff₀ h0] at hK
    exact ⟨K, hK⟩

/-! ## The solvers -/

section solvers
variable {E : Type} [NormedAddCommGroup E] [InnerProductSpace ℝ E]

/-- **C127, RSD and RCG.** Steepest descent, or conjugate gradients with the method of Hestenes and Stiefel (the default), of Hager and Zhang or an unknown method number, with the default initial steps of Barzilai and Borwein. -/
theorem C127_rsd_rcg {G : Geo X E} {k : FOKind} {c : ℝ} {C : LSCfg} {O : Oracle X E} {ub : E} {x0 : X} {fmin L mu Ly p2 thr kap : ℝ} (S : FOArmijo G k c C O ub x0 fmin L mu Ly p2 thr)
    (b : BBCfg) {init0 eps : ℝ} (h0 : 0 < init0) (heps : 0 < eps) (hmono : C.run.numPre ≤ 1) (hrule : ∀ p, O.init p = bbStep G O.dir b init0 eps p)
    (hk : 0 < kap) (hpl : GradDominated G.land x0 fmin kap) {lo : ℝ} (hlo : lo = anyFloor init0 (1 + √(2 * L * (G.f x0 - fmin))) eps)
    (K : ℕ) (hK : linRate C.ls L c (foHi p2 (Ly / mu)) lo kap ^ K * (G.f x0 - fmin) < gain C.ls L c (foHi p2 (Ly / mu)) lo thr) (hmax : K ≤ C.run.maxIter) :
    ∃ s, lsRun G.land C O x0 (C.run.maxIter + 1) = .finished s ∧ s.rs.ok = true ∧ s.rs.f1 = G.f s.x ∧ s.rs.iter ≤ K ∧ s.past.length = s.rs.iter + 1 ∧
      (O.timeUp s.rs.iter = true ∨ ‖G.grad s.x‖ < thr) ∧ RateTrace G.land x0 fmin (linRate C.ls L c (foHi p2 (Ly / mu)) lo kap) s.past := by
  subst hlo
  have R := (S.steps_bb b h0 heps hmono hrule).reach_any heps (fun x2 t x1 u q h hg _ => bbCand_fin h.2 (lt_of_lt_of_le S.thrpos hg))
  obtain ⟨s, e1, e2, e3, e4, e5, e6, -, e8, -⟩ := C127_linear_rate R hmono hk hpl K hK hmax
  exact ⟨s, e1, e2, e3, e4, e5, e6, e8⟩

/-- **C127, LRBFGS** with its default initial steps. -/
theorem C127_lrbfgs {G : Geo X E} {c : LRCfg} {C : LSCfg} {O : Oracle X E} {junk : ℕ → ℝ} {ub : E} {x0 : X} {fmin L Ly p1 p2 thr kap : ℝ} (S : LRArmijo G c C O junk ub x0 fmin L Ly p1 p2 thr)
    {init0 eps : ℝ} (h0 : 0 < init0) (hrule : ∀ p, O.init p = quadIntMod G.land O.dir init0 eps p) (hmono : C.run.numPre ≤ 1)
    (hk : 0 < kap) (hpl : GradDominated G.land x0 fmin kap) {lo c1 c2 : ℝ} (hc1 : c1 = lrLo (curv c thr) Ly p1 p2 c.cap) (hc2 : c2 = lrHi (curv c thr) Ly p1 p2 c.cap)
    (hlo : lo = stepFloor C.ls init0 (1 + √(2 * L * (G.f x0 - fmin))) L c1 c2)
    (K : ℕ) (hK : linRate C.ls L c1 c2 lo kap ^ K * (G.f x0 - fmin) < gain C.ls L c1 c2 lo thr) (hmax : K ≤ C.run.maxIter) :
    ∃ s, lsRun G.land C O x0 (C.run.maxIter + 1) = .finished s ∧ s.rs.ok = true ∧ s.rs.f1 = G.f s.x ∧ s.rs.iter ≤ K ∧ s.past.length = s.rs.iter + 1 ∧
      (O.timeUp s.rs.iter = true ∨ ‖G.grad s.x‖ < thr) ∧ RateTrace G.land x0 fmin (linRate C.ls L c1 c2 lo kap) s.past := by
  subst hc1 hc2 hlo
  obtain ⟨s, e1, e2, e3, e4, e5, e6, -, e8, -⟩ := C127_linear_rate (S.steps h0 hrule hmono).reach hmono hk hpl K hK hmax
  exact ⟨s, e1, e2, e3, e4, e5, e6, e8⟩

/-! ### Cases -/

/-- The gradient of `2 x²` dominates. -/
theorem quad_dominated : GradDominated quadGeo.land 1 0 4 := by
  intro x _
  show 2 * 4 * (quadGeo.f x - 0) ≤ ‖quadGeo.grad x‖ ^ 2
  simp only [quadGeo, Real.norm_eq_abs, sq_abs]
  exact le_of_eq (by ring)

/-- C127 for RSD and RCG applied: after each iteration the value has fallen by a fixed factor. -/
example {k : FOKind} (hk : k.covered) (b : BBCfg) : ∃ q : ℝ, q < 1 ∧ ∃ n s, lsRun quadGeo.land (quadCfg 0 n) (quadFOOracle k b) 1 (n + 1) = .finished s ∧ s.rs.iter ≤ n ∧
    RateTrace quadGeo.land 1 0 q s.past := by
  have R := fun n => ((quad_foArmijo hk b n).steps_bb b one_pos (by norm_num : (0 : ℝ) < 1 / 10 ^ 16) le_rfl (fun _ => rfl)).reach_any (by norm_num : (0 : ℝ) < 1 / 10 ^ 16)
    (fun x2 t x1 u q h hg _ => bbCand_fin h.2 (lt_of_lt_of_le (quad_foArmijo hk b n).thrpos hg))
  obtain ⟨K, hK⟩ := C127_steps_exist (R 0) (show (0 : ℝ) < 4 by norm_num)
  obtain ⟨s, e1, -, -, e4, -, -, e7⟩ := C127_rsd_rcg (quad_foArmijo hk b K) b one_pos (by norm_num : (0 : ℝ) < 1 / 10 ^ 16) le_rfl (fun _ => rfl) (by norm_num) quad_dominated rfl K hK le_rfl
  exact ⟨_, linRate_lt_one (R 0) (show (0 : ℝ) < 4 by norm_num), K, s, e1, e4, e7⟩

end solvers

end Verif.Solver

namespace Verif.TR

open Verif.Solver Verif.TRRun

variable {X : Type} {E : Type} [NormedAddCommGroup E] [InnerProductSpace ℝ E]

/-- **C127, RNewton** with its default initial steps. -/
theorem C127_newton {G : Geo X E} {H P M : X → E →ₗ[ℝ] E} {c : NCfg} {nan : E} {C : LSCfg} {O : Oracle X E} {x0 : X} {fmin L mu b p1 p2 thr kap : ℝ}
    (S : NewtonLSSetting G H P M c nan C O x0 fmin L mu b p1 p2 thr) {init0 eps : ℝ} (h0 : 0 < init0) (hrule : ∀ p, O.init p = quadIntMod G.land O.dir init0 eps p)
    (hk : 0 < kap) (hpl : GradDominated G.land x0 fmin kap) {lo c1 c2 : ℝ} (hc1 : c1 = newtonLo b p1 p2) (hc2 : c2 = newtonHi mu p2)
    (hlo : lo = stepFloor C.ls init0 (1 + √(2 * L * (G.f x0 - fmin))) L c1 c2)
    (K : ℕ) (hK : linRate C.ls L c1 c2 lo kap ^ K * (G.f x0 - fmin) < gain C.ls L c1 c2 lo thr) (hmax : K ≤ C.run.maxIter) :
    ∃ s, lsRun G.land C O x0 (C.run.maxIter + 1) = .finished s ∧ s.rs.ok = true ∧ s.rs.f1 = G.f s.x ∧ s.rs.iter ≤ K ∧ s.past.length = s.rs.iter + 1 ∧
      (O.timeUp s.rs.iter = true ∨ ‖G.grad s.x‖ < thr) ∧ RateTrace G.land x0 fmin (linRate C.ls L c1 c2 lo kap) s.past := by
  subst hc1 hc2 hlo
  obtain ⟨s, e1, e2, e3, e4, e5, e6, -, e8, -⟩ := C127_linear_rate (S.step h0 hrule).reach S.mono hk hpl K hK hmax
  exact ⟨s, e1, e2, e3, e4, e5, e6, e8⟩

/-- C127 for RNewton applied, from every other point than the minimiser. -/
example (minInner : ℕ) {x0 : ℝ} (hx : x0 ≠ 0) : ∃ q : ℝ, q < 1 ∧ ∃ n s, lsRun quarterGeo.land (quadCfg 0 n) (quarterOracle minInner) x0 (n + 1) = .finished s ∧ s.rs.iter ≤ n ∧
    RateTrace quarterGeo.land x0 0 q s.past := by
  have R := fun n => ((quarter_setting minInner n hx).step (eps := 1 / 2 ^ 52) one_pos (fun _ => rfl)).reach
  have hk : (0 : ℝ) < 1 / 2 := by norm_num
  obtain ⟨K, hK⟩ := C127_steps_exist (R 0) hk
  have hpl : GradDominated quarterGeo.land x0 0 (1 / 2) := by
    intro x _
    show 2 * (1 / 2) * (quarterGeo.f x - 0) ≤ ‖quarterGeo.grad x‖ ^ 2
    simp only [quarterGeo, Real.norm_eq_abs, sq_abs]
    exact le_of_eq (by ring)
  obtain ⟨s, e1, -, -, e4, -, -, e7⟩ := C127_newton (quarter_setting minInner K hx) (eps := 1 / 2 ^ 52) one_pos (fun _ => rfl) hk hpl rfl rfl rfl K hK le_rfl
  exact ⟨_, linRate_lt_one (R 0) hk, K, s, e1, e4, e7⟩

end Verif.TR
