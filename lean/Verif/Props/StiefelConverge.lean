import Verif.Props.StiefelSmooth
import Verif.Solver.StiefelRun
import Verif.Props.BBConverge
import Verif.Props.TRConverge
import Verif.Props.Problems
import Verif.Props.NaturalMat

/-!
# C131: the solvers reach the requested gradient norm on the Stiefel and Grassmann manifolds

The convergence theorems of the solvers (C99, C101, C113) have hypotheses about manifold and objective together: a quadratic upper model along the retraction, a lower bound, bounded gradients and
Hessian operators. Here they are derived, for the code of `Stiefel` and `Grassmann`, from a Lipschitz Euclidean gradient.
-/

set_option linter.unusedSectionVars false

namespace Verif.Obj

open Matrix Verif.Mat Verif.Stiefel Verif.Intr Verif.Solver

open scoped RealInnerProductSpace

variable {n p : ℕ}

/-! ## Specification -/

/-- What the convergence theorems ask for, with constants that hold on the whole manifold. -/
structure Uniform {X E : Type} [NormedAddCommGroup E] [InnerProductSpace ℝ E] (M : Geo X E) (fmin K gmax : ℝ) : Prop where
  below : ∀ x, fmin ≤ M.f x
  upper : QuadUpper M K
  grad : ∀ x, ‖M.grad x‖ ≤ gmax

/-- Parameters of a monotone Armijo search that ends only by the gradient test; `g0` is the norm of the gradient at the start, `K`, `c1`, `c2` the constants of upper model and directions. -/
structure ArmijoSolver {X V : Type} (C : LSCfg) (O : Oracle X V) (g0 K c1 c2 thr : ℝ) : Prop where
  mono : C.run.numPre ≤ 1
  kind : C.kind = .armijo
  alpha : 0 < C.ls.alpha
  alpha1 : C.ls.alpha < 1
  r1 : 0 < C.ls.r1
  r11 : C.ls.r1 < 1
  r2 : C.ls.r2 < 1
  minPos : 0 < C.ls.minStep
  minSmall : C.ls.minStep ≤ C.ls.r1 * safeStep C.ls K c1 c2
  nocall : O.callback = none
  thresh : Threshold C g0 thr
  thrpos : 0 < thr
  acc : C.accuracy * (g0 + C.tol) ≤ thr
  tolpos : 0 < C.tol
  min0 : C.run.minIter = 0
  gap : C.run.record = true → 0 < C.run.outputGap

/-- The constant of the upper model on the manifold. -/
noncomputable def curv (g L : ℝ) : ℝ := 2 * (2 * g + 4 * L)

/-- The decrease that is possible from a point. -/
noncomputable def drop (p : ℕ) (L g0 : ℝ) : ℝ := 2 * √p * g0 + 4 * p * L

/-! ## Coordinates -/

theorem dot_ofArr {d : ℕ} {l m : List ℝ} (hl : l.length = d) (hm : m.length = d) : ⟪ofArr d l, ofArr d m⟫ = dot l m := by
  rw [← dot_toArr, toArr_ofArr hl, toArr_ofArr hm]

theorem stiefel_coord (hp : p ≤ n) (junk : ℕ → ℝ) (z : StPoint n p) (g : Matrix (Fin n) (Fin p) ℝ) (c : Coord (stDim n p)) :
    ⟪ofArr (stDim n p) (stiefelIntr z.1.2.1 z.1.2.2 (proj z.1.1 g)), c⟫ = frob g (stiefelExtr junk z.1.2.1 z.1.2.2 (toArr c)) := by
  obtain ⟨t1, t2⟩ := stiefel_extr hp junk z c
  obtain ⟨-, h2, R, hR, hs⟩ := z.2
  obtain ⟨g1, g2, -⟩ := C66_stiefel_gradient h2 g
  rw [← dot_toArr, toArr_ofArr (C37_stiefel_dim hp _ _ _)]
  conv_lhs => rw [← t2]
  rw [← rowSigns_intr hs, ← rowSigns_intr hs, C37_stiefel_isometry hp hR h2 g1 t1, g2 _ t1]

theorem stiefel_norm (hp : p ≤ n) (junk : ℕ → ℝ) (z : StPoint n p) (c : Coord (stDim n p)) : nF (stiefelExtr junk z.1.2.1 z.1.2.2 (toArr c)) = ‖c‖ := by
  obtain ⟨t1, t2⟩ := stiefel_extr hp junk z c
  obtain ⟨-, h2, R, hR, hs⟩ := z.2
  have h : frob (stiefelExtr junk z.1.2.1 z.1.2.2 (toArr c)) (stiefelExtr junk z.1.2.1 z.1.2.2 (toArr c)) = ‖c‖ ^ 2 := by
    rw [← C37_stiefel_isometry hp hR h2 t1 t1, rowSigns_intr hs, t2, dot_toArr, real_inner_self_eq_norm_sq]
  rw [nF, h, Real.sqrt_sq (norm_nonneg _)]

theorem grass_coord (hp : p ≤ n) (junk : ℕ → ℝ) (z : StPoint n p) (g : Matrix (Fin n) (Fin p) ℝ) (c : Coord (grDim n p)) :
    ⟪ofArr (grDim n p) (grassIntr z.1.2.1 (gProj z.1.1 g)), c⟫ = frob g (grassExtr junk z.1.2.1 (toArr c)) := by
  obtain ⟨t1, t2⟩ := grass_extr hp junk z c
  obtain ⟨-, h2, R, hR, hs⟩ := z.2
  obtain ⟨g1, g2⟩ := C66_grassmann_gradient h2 g
  rw [← dot_toArr, toArr_ofArr (C37_grassmann_dim _ _)]
  conv_lhs => rw [← t2]
  rw [C37_grassmann_isometry hp hR h2 g1, g2 _ t1]

theorem grass_norm (hp : p ≤ n) (junk : ℕ → ℝ) (z : StPoint n p) (c : Coord (grDim n p)) : nF (grassExtr (p := p) junk z.1.2.1 (toArr c)) = ‖c‖ := by
  obtain ⟨t1, t2⟩ := grass_extr hp junk z c
  obtain ⟨-, h2, R, hR, hs⟩ := z.2
  have h : frob (grassExtr (p := p) junk z.1.2.1 (toArr c)) (grassExtr junk z.1.2.1 (toArr c)) = ‖c‖ ^ 2 := by
    rw [← C37_grassmann_isometry hp hR h2 t1, t2, dot_toArr, real_inner_self_eq_norm_sq]
  rw [nF, h, Real.sqrt_sq (norm_nonneg _)]

/-- A vector whose inner products are those of a matrix with isometric images is at most as long. -/
theorem norm_le_of_inner {d : ℕ} {g : Coord d} {A : Matrix (Fin n) (Fin p) ℝ} {e : Coord d → Matrix (Fin n) (Fin p) ℝ} (h : ∀ c, ⟪g, c⟫ = frob A (e c)) (hn : ∀ c, nF (e c) = ‖c‖) : ‖g‖ ≤ nF A := by
  have h1 : ‖g‖ ^ 2 ≤ nF A * ‖g‖ := by
    rw [← real_inner_self_eq_norm_sq, h, ← hn g]
    exact (le_abs_self _).trans (frob_cs _ _)
  rcases (norm_nonneg g).eq_or_lt with h0 | h0
  · rw [← h0]; exact nF_nonneg _
  · nlinarith

/-! ## The manifolds -/

variable {hhr : Matrix (Fin n) (Fin p) ℝ → Frame n p} {f : Matrix (Fin n) (Fin p) ℝ → ℝ} {G : Matrix (Fin n) (Fin p) ℝ → Matrix (Fin n) (Fin p) ℝ} {L : ℝ}

/-- **C131, Stiefel.** For every objective with a Lipschitz Euclidean gradient, the code of the Stiefel manifold satisfies the hypotheses of the convergence theorems, with constants computed from the
gradient at any one point. -/
theorem C131_stiefel_uniform (hp : p ≤ n) (junk : ℕ → ℝ) (hh : IsHHR hhr) (hG : IsEucGrad f G) (hL0 : 0 ≤ L) (hL : EucLipschitz G L) (z0 : StPoint n p) :
    Uniform (stiefelGeo hp junk hh f G) (f z0.1.1 - drop p L (nF (G z0.1.1))) (curv (gradMax p L (nF (G z0.1.1))) L) (gradMax p L (nF (G z0.1.1))) where
  below z := orth_below hG hL0 hL z0.2.2.1 z.2.2.1
  upper z c := by
    have hc := stiefel_coord hp junk z (G z.1.1) c
    have h := C131_qf_taylor hp hh hG hL0 hL z.2.2.1 (stiefel_extr hp junk z c).1 (grad_max hL0 hL z0.2.2.1 z.2.2.1)
    rw [stiefel_norm hp, ← hc] at h
    have := (abs_le.1 h).2
    show f (qfPoint hp (hhr (z.1.1 + stiefelExtr junk z.1.2.1 z.1.2.2 (toArr c)))) ≤ f z.1.1 + ⟪ofArr (stDim n p) (stiefelIntr z.1.2.1 z.1.2.2 (proj z.1.1 (G z.1.1))), c⟫ + _
    unfold curv
    linarith
  grad z := (norm_le_of_inner (stiefel_coord hp junk z (G z.1.1)) (stiefel_norm hp junk z)).trans (grad_max hL0 hL z0.2.2.1 z.2.2.1)

/-- **C131, Grassmann.** -/
theorem C131_grassmann_uniform (hp : p ≤ n) (junk : ℕ → ℝ) (hh : IsHHR hhr) (hG : IsEucGrad f G) (hL0 : 0 ≤ L) (hL : EucLipschitz G L) (z0 : StPoint n p) :
    Uniform (grassGeo hp junk hh f G) (f z0.1.1 - drop p L (nF (G z0.1.1))) (curv (gradMax p L (nF (G z0.1.1))) L) (gradMax p L (nF (G z0.1.1))) where
  below z := orth_below hG hL0 hL z0.2.2.1 z.2.2.1
  upper z c := by
    have hc := grass_coord hp junk z (G z.1.1) c
    have h := C131_qf_taylor hp hh hG hL0 hL z.2.2.1 (horizontal_tangent (grass_extr hp junk z c).1) (grad_max hL0 hL z0.2.2.1 z.2.2.1)
    rw [grass_norm hp, ← hc] at h
    have := (abs_le.1 h).2
    show f (qfPoint hp (hhr (z.1.1 + grassExtr junk z.1.2.1 (toArr c)))) ≤ f z.1.1 + ⟪ofArr (grDim n p) (grassIntr z.1.2.1 (gProj z.1.1 (G z.1.1))), c⟫ + _
    unfold curv
    linarith
  grad z := (norm_le_of_inner (grass_coord hp junk z (G z.1.1)) (grass_norm hp junk z)).trans (grad_max hL0 hL z0.2.2.1 z.2.2.1)

/-! ## Steepest descent -/

section

variable {X E : Type} [NormedAddCommGroup E] [InnerProductSpace ℝ E] {M : Geo X E} {C : LSCfg} {O : Oracle X E} {fmin K gmax c thr init0 : ℝ} {ub : E} {x0 : X}

/-- The hypotheses of C113 for steepest descent without preconditioner. -/
theorem rsd_setting (U : Uniform M fmin K gmax) (hK : 0 < K) (hg : 0 < gmax) (hP : ∀ x v, M.P x v = v) (hc : 0 < c) (hc1 : c ≤ 1) (h0 : 0 < init0)
    (S : ArmijoSolver C O ‖M.grad x0‖ K c 1 thr) (hdir : O.dir = rsdDirection M c ub) {rl : Past X → ℝ} (hrule : ∀ p, O.init p = rl p) :
    StepSetting M.land C O (fun _ d => ‖d‖) (fun _ => True) x0 fmin K c 1 thr gmax init0 rl where
  below := U.below
  upper := land_upper U.upper
  dirs x t past _ hx := by
    have hne : M.grad x ≠ 0 := norm_pos_iff.1 (lt_of_lt_of_le S.thrpos hx)
    obtain ⟨a, b⟩ := rsdDir_bounds (c := c) (p2 := 1) hc1 (P := M.P x) hne (by rw [hP, one_mul])
    rw [max_self] at b
    rw [hdir]
    exact ⟨a, b, norm_nonneg _⟩
  good0 := trivial
  goodS _ _ _ _ _ _ _ _ _ := trivial
  rule := hrule
  mono := S.mono
  init0 := h0
  bound x _ := U.grad x
  Gpos := hg
  Lpos := hK
  c1pos := hc
  c2pos := one_pos
  kind := S.kind
  alpha := S.alpha
  alpha1 := S.alpha1
  r1 := S.r1
  r11 := S.r11
  r2 := S.r2
  minPos := S.minPos
  minSmall := S.minSmall
  nocall := S.nocall
  thresh := S.thresh
  thrpos := S.thrpos
  acc := S.acc
  tolpos := S.tolpos
  g0 := norm_nonneg _
  min0 := S.min0
  gap := S.gap

end

theorem gradMax_pos (hp0 : 0 < p) (hL : 0 < L) {g : ℝ} (hg : 0 ≤ g) : 0 < gradMax p L g := by
  unfold gradMax
  have : 0 < √(p : ℝ) := Real.sqrt_pos.2 (by exact_mod_cast hp0)
  positivity

theorem curv_pos (hL : 0 < L) {g : ℝ} (hg : 0 ≤ g) : 0 < curv g L := by unfold curv; linarith

/-- The length of the stored gradient is the Frobenius norm of the projected one. -/
theorem stiefel_gnorm (hp : p ≤ n) (junk : ℕ → ℝ) (hh : IsHHR hhr) (z : StPoint n p) : ‖(stiefelGeo hp junk hh f G).grad z‖ = nF (proj z.1.1 (G z.1.1)) := by
  obtain ⟨-, h2, R, hR, hs⟩ := z.2
  have h1 := (C66_stiefel_gradient h2 (G z.1.1)).1
  have h : ‖(stiefelGeo hp junk hh f G).grad z‖ ^ 2 = frob (proj z.1.1 (G z.1.1)) (proj z.1.1 (G z.1.1)) := by
    rw [← real_inner_self_eq_norm_sq, ← C37_stiefel_isometry hp hR h2 h1 h1, rowSigns_intr hs]
    exact dot_ofArr (C37_stiefel_dim hp _ _ _) (C37_stiefel_dim hp _ _ _)
  rw [nF, ← h, Real.sqrt_sq (norm_nonneg _)]

theorem grass_gnorm (hp : p ≤ n) (junk : ℕ → ℝ) (hh : IsHHR hhr) (z : StPoint n p) : ‖(grassGeo hp junk hh f G).grad z‖ = nF (gProj z.1.1 (G z.1.1)) := by
  obtain ⟨-, h2, R, hR, hs⟩ := z.2
  have h1 := (C66_grassmann_gradient h2 (G z.1.1)).1
  have h : ‖(grassGeo hp junk hh f G).grad z‖ ^ 2 = frob (gProj z.1.1 (G z.1.1)) (gProj z.1.1 (G z.1.1)) := by
    rw [← real_inner_self_eq_norm_sq, ← C37_grassmann_isometry hp hR h2 h1]
    exact dot_ofArr (C37_grassmann_dim _ _) (C37_grassmann_dim _ _)
  rw [nF, ← h, Real.sqrt_sq (norm_nonneg _)]

/-- **C131, steepest descent on the Stiefel manifold.** For every size, every objective whose Euclidean gradient is Lipschitz, every starting point and every frame at it: a monotone Armijo run of
`RSD` with quadratic interpolation for the initial step ends by its gradient test (or the time limit), all its searches succeed, and the number of iterations is bounded by the constants. -/
theorem C131_stiefel_rsd (hp : p ≤ n) (hp0 : 0 < p) (junk : ℕ → ℝ) (hh : IsHHR hhr) (hG : IsEucGrad f G) (hL0 : 0 < L) (hL : EucLipschitz G L) (z0 : StPoint n p) {C : LSCfg}
    {O : Oracle (StPoint n p) (Coord (stDim n p))} {c thr init0 eps g K : ℝ} {ub : Coord (stDim n p)} (hc : 0 < c) (hc1 : c ≤ 1) (h0 : 0 < init0)
    (hg : g = gradMax p L (nF (G z0.1.1))) (hK : K = curv g L) (S : ArmijoSolver C O (nF (proj z0.1.1 (G z0.1.1))) K c 1 thr)
    (hdir : O.dir = rsdDirection (stiefelGeo hp junk hh f G) c ub) (hrule : ∀ q, O.init q = quadIntMod (stiefelGeo hp junk hh f G).land O.dir init0 eps q)
    (hN : drop p L (nF (G z0.1.1)) < C.run.maxIter * gain C.ls K c 1 (stepFloor C.ls init0 g K c 1) thr) :
    ∃ s, lsRun (stiefelGeo hp junk hh f G).land C O z0 (C.run.maxIter + 1) = .finished s ∧ s.rs.ok = true ∧ s.rs.f1 = f s.x.1.1 ∧
      s.rs.iter * gain C.ls K c 1 (stepFloor C.ls init0 g K c 1) thr ≤ f z0.1.1 - f s.x.1.1 ∧ (O.timeUp s.rs.iter = true ∨ nF (proj s.x.1.1 (G s.x.1.1)) < thr) := by
  subst hg hK
  have hgp := gradMax_pos hp0 hL0 (nF_nonneg (G z0.1.1))
  rw [← stiefel_gnorm hp junk hh] at S
  have T := rsd_setting (C131_stiefel_uniform hp junk hh hG hL0.le hL z0) (curv_pos hL0 hgp.le) hgp (fun _ _ => rfl) hc hc1 h0 S hdir hrule
  obtain ⟨s, e1, e2, e3, e4, e5, -⟩ := C113_default_steps T (by
    show f z0.1.1 - (f z0.1.1 - drop p L (nF (G z0.1.1))) < _
    rw [sub_sub_cancel]; exact hN)
  refine ⟨s, e1, e2, e3, e4, ?_⟩
  rw [← stiefel_gnorm hp junk hh]
  exact e5

/-- **C131, steepest descent on the Grassmann manifold.** -/
theorem C131_grassmann_rsd (hp : p ≤ n) (hp0 : 0 < p) (junk : ℕ → ℝ) (hh : IsHHR hhr) (hG : IsEucGrad f G) (hL0 : 0 < L) (hL : EucLipschitz G L) (z0 : StPoint n p) {C : LSCfg}
    {O : Oracle (StPoint n p) (Coord (grDim n p))} {c thr init0 eps g K : ℝ} {ub : Coord (grDim n p)} (hc : 0 < c) (hc1 : c ≤ 1) (h0 : 0 < init0)
    (hg : g = gradMax p L (nF (G z0.1.1))) (hK : K = curv g L) (S : ArmijoSolver C O (nF (gProj z0.1.1 (G z0.1.1))) K c 1 thr)
    (hdir : O.dir = rsdDirection (grassGeo hp junk hh f G) c ub) (hrule : ∀ q, O.init q = quadIntMod (grassGeo hp junk hh f G).land O.dir init0 eps q)
    (hN : drop p L (nF (G z0.1.1)) < C.run.maxIter * gain C.ls K c 1 (stepFloor C.ls init0 g K c 1) thr) :
    ∃ s, lsRun (grassGeo hp junk hh f G).land C O z0 (C.run.maxIter + 1) = .finished s ∧ s.rs.ok = true ∧ s.rs.f1 = f s.x.1.1 ∧
      s.rs.iter * gain C.ls K c 1 (stepFloor C.ls init0 g K c 1) thr ≤ f z0.1.1 - f s.x.1.1 ∧ (O.timeUp s.rs.iter = true ∨ nF (gProj s.x.1.1 (G s.x.1.1)) < thr) := by
  subst hg hK
  have hgp := gradMax_pos hp0 hL0 (nF_nonneg (G z0.1.1))
  rw [← grass_gnorm hp junk hh] at S
  have T := rsd_setting (C131_grassmann_uniform hp junk hh hG hL0.le hL z0) (curv_pos hL0 hgp.le) hgp (fun _ _ => rfl) hc hc1 h0 S hdir hrule
  obtain ⟨s, e1, e2, e3, e4, e5, -⟩ := C113_default_steps T (by
    show f z0.1.1 - (f z0.1.1 - drop p L (nF (G z0.1.1))) < _
    rw [sub_sub_cancel]; exact hN)
  refine ⟨s, e1, e2, e3, e4, ?_⟩
  rw [← grass_gnorm hp junk hh]
  exact e5

/-- **C131, other initial steps.** The same for an arbitrary rule for the initial step, in particular the default Barzilai-Borwein steps of `RSD`, as long as it produces numbers (not NaN or infinity). -/
theorem C131_stiefel_rsd_rule (hp : p ≤ n) (hp0 : 0 < p) (junk : ℕ → ℝ) (hh : IsHHR hhr) (hG : IsEucGrad f G) (hL0 : 0 < L) (hL : EucLipschitz G L) (z0 : StPoint n p) {C : LSCfg}
    {O : Oracle (StPoint n p) (Coord (stDim n p))} {c thr init0 eps g K : ℝ} {ub : Coord (stDim n p)} (hc : 0 < c) (hc1 : c ≤ 1) (h0 : 0 < init0) (heps : 0 < eps)
    (hg : g = gradMax p L (nF (G z0.1.1))) (hK : K = curv g L) (S : ArmijoSolver C O (nF (proj z0.1.1 (G z0.1.1))) K c 1 thr)
    (hdir : O.dir = rsdDirection (stiefelGeo hp junk hh f G) c ub) {cand : Past (StPoint n p) → Ext ℝ}
    (hrule : ∀ q, O.init q = ruleStep (stiefelGeo hp junk hh f G).land O.dir init0 eps cand q) (hcand : ∀ q, 2 ≤ q.length → ∃ v, cand q = .fin v)
    (hN : drop p L (nF (G z0.1.1)) < C.run.maxIter * gain C.ls K c 1 (anyFloor init0 g eps) thr) :
    ∃ s, lsRun (stiefelGeo hp junk hh f G).land C O z0 (C.run.maxIter + 1) = .finished s ∧ s.rs.ok = true ∧ s.rs.f1 = f s.x.1.1 ∧
      s.rs.iter * gain C.ls K c 1 (anyFloor init0 g eps) thr ≤ f z0.1.1 - f s.x.1.1 ∧ (O.timeUp s.rs.iter = true ∨ nF (proj s.x.1.1 (G s.x.1.1)) < thr) := by
  subst hg hK
  have hgp := gradMax_pos hp0 hL0 (nF_nonneg (G z0.1.1))
  rw [← stiefel_gnorm hp junk hh] at S
  have T := rsd_setting (C131_stiefel_uniform hp junk hh hG hL0.le hL z0) (curv_pos hL0 hgp.le) hgp (fun _ _ => rfl) hc hc1 h0 S hdir hrule
  obtain ⟨s, e1, e2, e3, e4, e5, -⟩ := C113_any_rule T heps (fun x2 t x1 u q _ _ _ => hcand _ (by simp)) (by
    show f z0.1.1 - (f z0.1.1 - drop p L (nF (G z0.1.1))) < _
    rw [sub_sub_cancel]; exact hN)
  refine ⟨s, e1, e2, e3, e4, ?_⟩
  rw [← stiefel_gnorm hp junk hh]
  exact e5

/-! ## Trust-region Newton -/

/-- `H` is the Euclidean Hessian: the derivative of the Euclidean gradient, and symmetric. -/
structure IsEucHess (G : Matrix (Fin n) (Fin p) ℝ → Matrix (Fin n) (Fin p) ℝ) (H : Matrix (Fin n) (Fin p) ℝ → Matrix (Fin n) (Fin p) ℝ →ₗ[ℝ] Matrix (Fin n) (Fin p) ℝ) : Prop where
  der : ∀ x v w, HasDerivAt (fun t : ℝ => frob (G (x + t • v)) w) (frob (H x v) w) 0
  sym : ∀ x u v, frob (H x u) v = frob u (H x v)

variable {H : Matrix (Fin n) (Fin p) ℝ → Matrix (Fin n) (Fin p) ℝ →ₗ[ℝ] Matrix (Fin n) (Fin p) ℝ}

theorem hess_norm (hL : EucLipschitz G L) (hH : IsEucHess G H) (x v : Matrix (Fin n) (Fin p) ℝ) : nF (H x v) ≤ L * nF v := by
  have hLv : 0 ≤ L * nF v := by
    have := (nF_nonneg _).trans (hL (x + v) x)
    rwa [add_sub_cancel_left] at this
  have h1 : ‖frob (H x v) (H x v)‖ ≤ L * nF v * nF (H x v) := by
    refine (hH.der x v (H x v)).le_of_lip' (mul_nonneg hLv (nF_nonneg _)) (Filter.Eventually.of_forall fun t => ?_)
    rw [zero_smul, add_zero, ← frob_sub_left, sub_zero, Real.norm_eq_abs, Real.norm_eq_abs]
    refine (frob_cs _ _).trans ?_
    have := hL (x + t • v) x
    rw [add_sub_cancel_left, nF_smul] at this
    calc _ ≤ L * (|t| * nF v) * nF (H x v) := mul_le_mul_of_nonneg_right this (nF_nonneg _)
      _ = _ := by ring
  rw [Real.norm_eq_abs, abs_of_nonneg (frob_self_nonneg _), ← nF_sq] at h1
  rcases (nF_nonneg (H x v)).eq_or_lt with h0 | h0
  · rw [← h0]; exact hLv
  · nlinarith

theorem nF_sym (A : Matrix (Fin p) (Fin p) ℝ) : nF (sym A) ≤ nF A := by
  have h := nF_add A Aᵀ
  rw [nF_transpose] at h
  unfold sym
  rw [nF_smul, abs_of_pos (by norm_num)]
  linarith

theorem nF_tr_mul {x : Matrix (Fin n) (Fin p) ℝ} (hx : xᵀ * x = 1) (A : Matrix (Fin n) (Fin p) ℝ) : nF (xᵀ * A) ≤ nF A := by
  refine Real.sqrt_le_sqrt ?_
  have h2 : frob (gProj x A) (gProj x A) = frob A (gProj x A) := by
    rw [(C35_grassmann_projection hx A (gProj x A)).2.2.2.1, (C35_grassmann_projection hx A A).2.2.1]
  have h3 : frob A (gProj x A) = frob A A - frob (xᵀ * A) (xᵀ * A) := by
    unfold gProj; rw [frob_sub_right, frob_mul_left' x]
  have := frob_self_nonneg (gProj x A)
  linarith

/-- **C131, trust-region Newton on the Stiefel manifold.** For every size, every objective with a Lipschitz Euclidean gradient and a symmetric Euclidean Hessian, the Hessian operators on the
manifold are symmetric and bounded, and the objective has a second order expansion along the retraction. -/
theorem C131_stiefel_newton (hp : p ≤ n) (junk : ℕ → ℝ) (hh : IsHHR hhr) (hG : IsEucGrad f G) (hL0 : 0 ≤ L) (hL : EucLipschitz G L) (hH : IsEucHess G H) (z0 : StPoint n p) {theta kappa thr : ℝ}
    {maxInner : ℕ} (hk : 0 ≤ kappa) (hm : 0 < maxInner) {g : ℝ} (hg : g = gradMax p L (nF (G z0.1.1))) :
    TR.NewtonSetting (stiefelProb hp junk hh f G H z0 theta kappa maxInner thr) (L + g) (2 * g + 4 * L + (L + g) / 2) := by
  subst hg
  set g := gradMax p L (nF (G z0.1.1)) with hg
  have hin : ∀ (z : StPoint n p) (c e : Coord (stDim n p)), ⟪stiefelHess hp junk G H z c, e⟫ =
      frob (H z.1.1 (stiefelExtr junk z.1.2.1 z.1.2.2 (toArr c)) - stiefelExtr junk z.1.2.1 z.1.2.2 (toArr c) * sym (z.1.1ᵀ * G z.1.1)) (stiefelExtr junk z.1.2.1 z.1.2.2 (toArr e)) :=
    fun z c e => stiefel_coord hp junk z _ e
  have hq : ∀ (z : StPoint n p) (c : Coord (stDim n p)), |⟪c, stiefelHess hp junk G H z c⟫| ≤ (L + g) * ‖c‖ ^ 2 := by
    intro z c
    rw [real_inner_comm, hin]
    refine (frob_cs _ _).trans ?_
    have h1 := nF_sub (H z.1.1 (stiefelExtr junk z.1.2.1 z.1.2.2 (toArr c))) (stiefelExtr junk z.1.2.1 z.1.2.2 (toArr c) * sym (z.1.1ᵀ * G z.1.1))
    have h2 := hess_norm hL hH z.1.1 (stiefelExtr junk z.1.2.1 z.1.2.2 (toArr c))
    have h3 := nF_mul (stiefelExtr junk z.1.2.1 z.1.2.2 (toArr c)) (sym (z.1.1ᵀ * G z.1.1))
    have h4 := (nF_sym (z.1.1ᵀ * G z.1.1)).trans ((nF_tr_mul z.2.2.1 (G z.1.1)).trans (grad_max hL0 hL z0.2.2.1 z.2.2.1))
    rw [stiefel_norm hp junk z c] at h2 h3 ⊢
    have h5 := mul_le_mul_of_nonneg_left h4 (norm_nonneg c)
    have h6 := mul_le_mul_of_nonneg_right (h1.trans (add_le_add h2 (h3.trans h5))) (norm_nonneg c)
    refine h6.trans (le_of_eq ?_)
    rw [hg]; ring
  refine ⟨?_, fun z c => (le_abs_self _).trans (hq z c), fun _ => rfl, ?_, hm, rfl, hk⟩
  · intro z c e
    show ⟪stiefelHess hp junk G H z c, e⟫ = ⟪c, stiefelHess hp junk G H z e⟫
    rw [real_inner_comm _ c, hin, hin]
    generalize stiefelExtr junk z.1.2.1 z.1.2.2 (toArr c) = u
    generalize stiefelExtr junk z.1.2.1 z.1.2.2 (toArr e) = v
    rw [frob_sub_left, frob_sub_left, hH.sym, frob_comm u (H _ v), frob_mul_right u, sym_transpose, frob_comm u]
  · intro z c
    show |f (qfPoint hp (hhr (z.1.1 + stiefelExtr junk z.1.2.1 z.1.2.2 (toArr c)))) - f z.1.1 - (⟪c, ofArr (stDim n p) (stiefelIntr z.1.2.1 z.1.2.2 (proj z.1.1 (G z.1.1)))⟫
      + 1 / 2 * ⟪c, stiefelHess hp junk G H z c⟫)| ≤ _
    have h := C131_qf_taylor hp hh hG hL0 hL z.2.2.1 (stiefel_extr hp junk z c).1 (grad_max hL0 hL z0.2.2.1 z.2.2.1)
    rw [stiefel_norm hp, ← stiefel_coord hp junk z (G z.1.1) c, real_inner_comm] at h
    have h1 := abs_le.1 h
    have h2 := abs_le.1 (hq z c)
    rw [abs_le]
    constructor
    · nlinarith [h1.1, h2.2]
    · nlinarith [h1.2, h2.1]

/-- **C131, runs.** `RTRNewton` with its truncated conjugate gradient solver, from any starting point on the Stiefel manifold, reaches a gradient norm below `thr` within an explicit number of iterations. -/
theorem C131_stiefel_rtr_newton (hp : p ≤ n) (hp0 : 0 < p) (junk : ℕ → ℝ) (hh : IsHHR hhr) (hG : IsEucGrad f G) (hL0 : 0 < L) (hL : EucLipschitz G L) (hH : IsEucHess G H) (z0 : StPoint n p)
    {theta kappa thr : ℝ} {maxInner : ℕ} (hk : 0 ≤ kappa) (hm : 0 < maxInner) {g gam : ℝ} (hg : g = gradMax p L (nF (G z0.1.1))) (hgam : gam = 2 * g + 4 * L + (L + g) / 2) (C : TRRun.Cfg ℝ)
    (hthr : 0 < thr) (hacc : C.accuracy * (nF (proj z0.1.1 (G z0.1.1)) + C.tolerance) ≤ thr) (htol : 0 < C.tolerance)
    (hrho0 : 0 ≤ C.acceptRho) (hrho : C.acceptRho < 1 / 4) (hinit : 0 < C.initialDelta) (hmaxD : 0 < C.maximumDelta)
    (hshr : 0 < C.shrinked) (hshr1 : C.shrinked ≤ 1) (hmag : 1 ≤ C.magnified)
    (hsmall : C.minimumDelta ≤ C.shrinked * TRRun.goodRadius (1 / 2) (L + g) gam thr) (hmin : C.minIter = 0) (hgap : C.outputGap ≠ 0)
    (N i j : ℕ) (hN : drop p L (nF (G z0.1.1)) < N * TRRun.trGain C (1 / 2) (L + g) gam thr)
    (hj : C.magnified * C.shrinked ^ j ≤ 1) (hi : C.initialDelta * C.shrinked ^ i < TRRun.leastRadius C (1 / 2) (L + g) gam thr)
    (hmax : (1 + j) * N + i ≤ C.maxIter) :
    ∃ s, TRRun.run C (stiefelProb hp junk hh f G H z0 theta kappa maxInner thr).env (C.maxIter + 1) = .finished s ∧ nF (proj s.x1.1.1 (G s.x1.1.1)) < thr ∧ s.iter ≤ (1 + j) * N + i ∧
      s.f1 = f s.x1.1.1 ∧ s.f1 ≤ f z0.1.1 := by
  have hgp : 0 < g := by rw [hg]; exact gradMax_pos hp0 hL0 (nF_nonneg _)
  have S := C131_stiefel_newton hp junk hh hG hL0.le hL hH z0 (theta := theta) (thr := thr) hk hm hg
  rw [← hgam] at S
  obtain ⟨s, e1, e2, e3, e4, e5⟩ := TR.C101_rtr_newton_converges _ C (fmin := f z0.1.1 - drop p L (nF (G z0.1.1))) S (C131_stiefel_uniform hp junk hh hG hL0.le hL z0).below
    (by linarith) (by rw [hgam]; linarith) hthr (by simp [stiefelProb]) (fun k x y => by simp [stiefelProb])
    (by show C.accuracy * (‖(stiefelGeo hp junk hh f G).grad z0‖ + _) ≤ _; rw [stiefel_gnorm]; exact hacc) htol hrho0 hrho hinit hmaxD hshr hshr1 hmag hsmall hmin hgap N i j
    (by show f z0.1.1 - (f z0.1.1 - drop p L (nF (G z0.1.1))) < _; rw [sub_sub_cancel]; exact hN) hj hi hmax
  refine ⟨s, e1, ?_, e3, e4, e5⟩
  rw [← stiefel_gnorm (f := f) hp junk hh]
  exact e2

/-! ## Problems -/

theorem line_ed (x v : Matrix (Fin n) (Fin p) ℝ) (i : Fin n) (j : Fin p) : HasDerivAt (fun t : ℝ => (x + t • v) i j) (v i j) 0 := by
  have h : HasDerivAt (fun t : ℝ => x i j + t * v i j) (1 * v i j) 0 := ((hasDerivAt_id (0 : ℝ)).mul_const (v i j)).const_add (x i j)
  rw [one_mul] at h
  exact h

/-- The coded Euclidean gradient of a problem, and its Hessian. -/
theorem eucGrad_of {F : Type} {P : Verif.Problem.Prob (Matrix (Fin n) (Fin p) ℝ) F} (h : Verif.Problem.IsGrad (Verif.Problem.matGeo (Fin n) (Fin p)) P) :
    IsEucGrad (fun x => (P.f x).1) (fun x => P.eucGrad x (P.f x).2) := by
  intro x v
  have := h (fun t : ℝ => x + t • v) v 0 (line_ed x v)
  simp only [zero_smul, add_zero] at this
  exact this

/-- Cost and Euclidean gradient as the solvers use them. -/
def costOf {F : Type} (P : Verif.Problem.Prob (Matrix (Fin n) (Fin p) ℝ) F) (x : Matrix (Fin n) (Fin p) ℝ) : ℝ := (P.f x).1

def gradOf {F : Type} (P : Verif.Problem.Prob (Matrix (Fin n) (Fin p) ℝ) F) (x : Matrix (Fin n) (Fin p) ℝ) : Matrix (Fin n) (Fin p) ℝ := P.eucGrad x (P.f x).2

/-- The action of the Euclidean Hessian of `StieBrockett`. -/
noncomputable def brockettHess (B : Matrix (Fin n) (Fin n) ℝ) (D : Fin p → ℝ) (x : Matrix (Fin n) (Fin p) ℝ) : Matrix (Fin n) (Fin p) ℝ →ₗ[ℝ] Matrix (Fin n) (Fin p) ℝ where
  toFun v := (Verif.Problem.stieBrockett B D).eucHess x ((Verif.Problem.stieBrockett B D).f x).2 v
  map_add' u v := by
    simp only [Verif.Problem.stieBrockett, Verif.Problem.colScale_eq, Matrix.mul_add, smul_add, Matrix.add_mul]
  map_smul' a v := by
    simp only [Verif.Problem.stieBrockett, Verif.Problem.colScale_eq, Matrix.mul_smul, Matrix.smul_mul, RingHom.id_apply, smul_comm a]

/-- **C131, Brockett cost.** The coded gradient of `StieBrockett` is Lipschitz and the coded Hessian is its symmetric derivative: the theorems of C131 apply to it for all matrices `B` (symmetric) and `D`. -/
theorem C131_brockett {B : Matrix (Fin n) (Fin n) ℝ} (hB : Bᵀ = B) (D : Fin p → ℝ) (hL : 2 * nF B * nF (diagonal D) ≤ L) :
    IsEucGrad (costOf (Verif.Problem.stieBrockett B D)) (gradOf (Verif.Problem.stieBrockett B D)) ∧ EucLipschitz (gradOf (Verif.Problem.stieBrockett B D)) L ∧
      IsEucHess (gradOf (Verif.Problem.stieBrockett B D)) (brockettHess B D) := by
  have e : ∀ x, gradOf (Verif.Problem.stieBrockett B D) x = (2 : ℝ) • (B * x * diagonal D) := fun x => by
    simp only [gradOf, Verif.Problem.stieBrockett, Verif.Problem.colScale_eq]
  have eh : ∀ x v, brockettHess B D x v = (2 : ℝ) • (B * v * diagonal D) := fun x v => by
    simp only [brockettHess, Verif.Problem.stieBrockett, Verif.Problem.colScale_eq, LinearMap.coe_mk, AddHom.coe_mk, Matrix.smul_mul]
  refine ⟨eucGrad_of (Verif.Problem.C52_brockett hB D).1, fun x y => ?_, ⟨fun x v w => ?_, fun x u v => ?_⟩⟩
  · rw [e, e, ← smul_sub, ← Matrix.sub_mul, ← Matrix.mul_sub, nF_smul, abs_of_pos zero_lt_two]
    have h1 := nF_mul (B * (x - y)) (diagonal D)
    have h2 := nF_mul B (x - y)
    have h3 := mul_le_mul_of_nonneg_right h2 (nF_nonneg (diagonal D))
    have h4 := mul_le_mul_of_nonneg_right hL (nF_nonneg (x - y))
    nlinarith
  · simp only [e, eh]
    have h : HasDerivAt (fun t : ℝ => frob ((2 : ℝ) • (B * x * diagonal D)) w + t * frob ((2 : ℝ) • (B * v * diagonal D)) w) (1 * frob ((2 : ℝ) • (B * v * diagonal D)) w) 0 :=
      ((hasDerivAt_id (0 : ℝ)).mul_const _).const_add _
    rw [one_mul] at h
    refine h.congr_of_eventuallyEq (Filter.Eventually.of_forall fun t => ?_)
    show frob ((2 : ℝ) • (B * (x + t • v) * diagonal D)) w = _
    rw [Matrix.mul_add, Matrix.add_mul, smul_add, frob_add_left, Matrix.mul_smul, Matrix.smul_mul, smul_comm, frob_smul_left t]
  · rw [eh, eh, frob_smul_left, frob_smul_right, frob_mul_right, diagonal_transpose, frob_mul_left, hB, Matrix.mul_assoc]

/-- **C131, Rayleigh quotient.** Likewise for `GrassRQ`. -/
theorem C131_rayleigh {B : Matrix (Fin n) (Fin n) ℝ} (hB : Bᵀ = B) (hL : nF B ≤ L) :
    IsEucGrad (costOf (Verif.Problem.grassRQ (p := Fin p) B)) (gradOf (Verif.Problem.grassRQ B)) ∧ EucLipschitz (gradOf (Verif.Problem.grassRQ (p := Fin p) B)) L := by
  refine ⟨eucGrad_of (Verif.Problem.C52_rayleigh hB).1, fun x y => ?_⟩
  show nF (B * x - B * y) ≤ _
  rw [← Matrix.mul_sub]
  exact (nF_mul _ _).trans (mul_le_mul_of_nonneg_right hL (nF_nonneg _))

/-! ### For every tolerance -/

/-- Default parameters of the Armijo search (SolversSMLS.cpp:655-680) with the absolute gradient test, a tolerance, a smallest step and an iteration limit. -/
noncomputable def stdCfg (tol minStep : ℝ) (N : ℕ) : LSCfg where
  run := { maxIter := N, minIter := 0, numPre := 1, record := false, outputGap := 1 }
  ls := { alpha := 1 / 10000, beta := 999 / 1000, r1 := 1 / 10, r2 := 9 / 10, minStep := minStep, maxStep := 10 ^ 10, numPre := 1 }
  kind := .armijo
  crit := .gradF
  tol := tol
  accuracy := 0
  finalStep := -1
  preFunsAcc := 10 ^ 6

/-- Default parameters of the trust-region solvers (SolversSMTR.cpp:330-350) with the smallest radius set to zero, the absolute gradient test, a tolerance and an iteration limit. -/
noncomputable def trCfg (tol : ℝ) (N : ℕ) : TRRun.Cfg ℝ where
  maxIter := N
  minIter := 0
  outputGap := 1
  record := true
  initialDelta := 1
  maximumDelta := 10 ^ 4
  minimumDelta := 0
  magnified := 2
  shrinked := 1 / 4
  acceptRho := 1 / 10
  accuracy := 0
  tolerance := tol
  sqeps := 1 / 10 ^ 8

/-- Steepest descent with quadratic interpolation for the initial step, no time limit, no user's stopping function, bisection when the interpolation formulas give nothing. -/
noncomputable def stdOracle {X E : Type} [NormedAddCommGroup E] [InnerProductSpace ℝ E] (M : Geo X E) : Oracle X E where
  dir := rsdDirection M (1 / 10 ^ 6) 0
  init := quadIntMod M.land (rsdDirection M (1 / 10 ^ 6) 0) 1 (1 / 10 ^ 16)
  interp _ := ⟨fun _ _ => none, fun _ _ _ _ => none, fun _ _ _ _ _ => none, fun _ _ => none, fun _ _ _ _ => 0, fun _ _ _ _ => 0⟩
  timeUp _ := false
  callback := none
  stale _ := 0

/-- **C131, Brockett cost on the Stiefel manifold.** For all sizes, all symmetric `B`, all `D`, every starting point and every tolerance there are a bound for the smallest step and a number of iterations
with which steepest descent ends successfully at a point whose gradient is shorter than the tolerance. -/
theorem C131_brockett_rsd (hp : p ≤ n) (hp0 : 0 < p) (junk : ℕ → ℝ) (hh : IsHHR hhr) {B : Matrix (Fin n) (Fin n) ℝ} (hB : Bᵀ = B) (D : Fin p → ℝ) (z0 : StPoint n p) {tol : ℝ} (htol : 0 < tol) :
    ∃ δ : ℝ, 0 < δ ∧ ∃ N0 : ℕ, ∀ minStep, 0 < minStep → minStep ≤ δ → ∀ N, N0 ≤ N →
      ∃ s, lsRun (stiefelGeo hp junk hh (costOf (Verif.Problem.stieBrockett B D)) (gradOf (Verif.Problem.stieBrockett B D))).land (stdCfg tol minStep N)
        (stdOracle (stiefelGeo hp junk hh (costOf (Verif.Problem.stieBrockett B D)) (gradOf (Verif.Problem.stieBrockett B D)))) z0 (N + 1) = .finished s ∧ s.rs.ok = true ∧
        nF (proj s.x.1.1 (gradOf (Verif.Problem.stieBrockett B D) s.x.1.1)) < tol := by
  obtain ⟨h1, h2, -⟩ := C131_brockett (L := 2 * nF B * nF (diagonal D) + 1) hB D (by linarith)
  have hL : 0 < 2 * nF B * nF (diagonal D) + 1 := by
    have := mul_nonneg (nF_nonneg B) (nF_nonneg (diagonal D)); linarith
  generalize 2 * nF B * nF (diagonal D) + 1 = L at *
  generalize costOf (Verif.Problem.stieBrockett B D) = f at *
  generalize gradOf (Verif.Problem.stieBrockett B D) = G at *
  have hg : 0 < gradMax p L (nF (G z0.1.1)) := gradMax_pos hp0 hL (nF_nonneg _)
  have hK := curv_pos hL hg.le
  set g := gradMax p L (nF (G z0.1.1)) with hgd
  set K := curv g L with hKd
  have e : ∀ m N, safeStep (stdCfg tol m N).ls K (1 / 10 ^ 6) 1 = 2 * (1 - 1 / 10000) * (1 / 10 ^ 6) / (K * 1 ^ 2) := fun _ _ => rfl
  have hs : 0 < 2 * (1 - 1 / 10000) * (1 / 10 ^ 6) / (K * 1 ^ 2) := by
    have : (0 : ℝ) < 2 * (1 - 1 / 10000) * (1 / 10 ^ 6) := by norm_num
    positivity
  have hgain : ∀ m N, gain (stdCfg tol m N).ls K (1 / 10 ^ 6) 1 (stepFloor (stdCfg tol m N).ls 1 g K (1 / 10 ^ 6) 1) tol =
    gain (stdCfg tol 0 0).ls K (1 / 10 ^ 6) 1 (stepFloor (stdCfg tol 0 0).ls 1 g K (1 / 10 ^ 6) 1) tol := fun _ _ => rfl
  have hgp : 0 < gain (stdCfg tol 0 0).ls K (1 / 10 ^ 6) 1 (stepFloor (stdCfg tol 0 0).ls 1 g K (1 / 10 ^ 6) 1) tol := by
    unfold gain stepFloor
    rw [e]
    simp only [stdCfg]
    positivity
  obtain ⟨N0, hN0⟩ := exists_nat_gt (drop p L (nF (G z0.1.1)) / gain (stdCfg tol 0 0).ls K (1 / 10 ^ 6) 1 (stepFloor (stdCfg tol 0 0).ls 1 g K (1 / 10 ^ 6) 1) tol)
  rw [div_lt_iff₀ hgp] at hN0
  refine ⟨1 / 10 * (2 * (1 - 1 / 10000) * (1 / 10 ^ 6) / (K * 1 ^ 2)), by positivity, N0, fun m hm hm2 N hN => ?_⟩
  have S : ArmijoSolver (stdCfg tol m N) (stdOracle (stiefelGeo hp junk hh f G)) (nF (proj z0.1.1 (G z0.1.1))) K (1 / 10 ^ 6) 1 tol :=
    { mono := le_rfl, kind := rfl, alpha := by norm_num [stdCfg], alpha1 := by norm_num [stdCfg], r1 := by norm_num [stdCfg], r11 := by norm_num [stdCfg], r2 := by norm_num [stdCfg]
      minPos := hm, minSmall := hm2, nocall := rfl, thresh := Or.inl ⟨rfl, rfl⟩, thrpos := htol, acc := by simp [stdCfg, htol.le], tolpos := htol, min0 := rfl, gap := fun h => by simp [stdCfg] at h }
  obtain ⟨s, e1, e2, -, -, e5⟩ := C131_stiefel_rsd hp hp0 junk hh h1 hL h2 z0 (c := 1 / 10 ^ 6) (init0 := 1) (eps := 1 / 10 ^ 16) (by norm_num) (by norm_num) one_pos hgd hKd S rfl (fun _ => rfl) (by
    rw [hgain]
    refine hN0.trans_le (mul_le_mul_of_nonneg_right ?_ hgp.le)
    exact_mod_cast hN)
  refine ⟨s, e1, e2, e5.resolve_left ?_⟩
  simp [stdOracle]

/-- **C131, trust-region Newton on the Brockett cost.** For all sizes, every starting point and every tolerance there is a number of iterations within which the run ends with a gradient shorter
than the tolerance. -/
theorem C131_brockett_rtr_newton (hp : p ≤ n) (hp0 : 0 < p) (junk : ℕ → ℝ) (hh : IsHHR hhr) {B : Matrix (Fin n) (Fin n) ℝ} (hB : Bᵀ = B) (D : Fin p → ℝ) (z0 : StPoint n p) {tol : ℝ} (htol : 0 < tol)
    {theta kappa : ℝ} {maxInner : ℕ} (hk : 0 ≤ kappa) (hm : 0 < maxInner) :
    ∃ N0 : ℕ, ∀ N, N0 ≤ N → ∃ s, TRRun.run (trCfg tol N)
        (stiefelProb hp junk hh (costOf (Verif.Problem.stieBrockett B D)) (gradOf (Verif.Problem.stieBrockett B D)) (brockettHess B D) z0 theta kappa maxInner tol).env (N + 1) = .finished s ∧
        nF (proj s.x1.1.1 (gradOf (Verif.Problem.stieBrockett B D) s.x1.1.1)) < tol ∧ s.f1 ≤ costOf (Verif.Problem.stieBrockett B D) z0.1.1 := by
  obtain ⟨h1, h2, h3⟩ := C131_brockett (L := 2 * nF B * nF (diagonal D) + 1) hB D (by linarith)
  have hL : 0 < 2 * nF B * nF (diagonal D) + 1 := by
    have := mul_nonneg (nF_nonneg B) (nF_nonneg (diagonal D)); linarith
  generalize 2 * nF B * nF (diagonal D) + 1 = L at *
  generalize costOf (Verif.Problem.stieBrockett B D) = f at *
  generalize gradOf (Verif.Problem.stieBrockett B D) = G at *
  generalize brockettHess B D = H at *
  have hg : 0 < gradMax p L (nF (G z0.1.1)) := gradMax_pos hp0 hL (nF_nonneg _)
  set g := gradMax p L (nF (G z0.1.1)) with hgd
  set gam := 2 * g + 4 * L + (L + g) / 2 with hgam
  have hgamp : 0 < gam := by rw [hgam]; positivity
  have hgr : 0 < TRRun.goodRadius (1 / 2) (L + g) gam tol := by unfold TRRun.goodRadius; positivity
  have hlr : ∀ N, TRRun.leastRadius (trCfg tol N) (1 / 2) (L + g) gam tol = TRRun.leastRadius (trCfg tol 0) (1 / 2) (L + g) gam tol := fun _ => rfl
  have hlr0 : 0 < TRRun.leastRadius (trCfg tol 0) (1 / 2) (L + g) gam tol := by
    unfold TRRun.leastRadius; simp only [trCfg]; positivity
  have htg : ∀ N, TRRun.trGain (trCfg tol N) (1 / 2) (L + g) gam tol = TRRun.trGain (trCfg tol 0) (1 / 2) (L + g) gam tol := fun _ => rfl
  have htg0 : 0 < TRRun.trGain (trCfg tol 0) (1 / 2) (L + g) gam tol := by
    unfold TRRun.trGain; positivity
  obtain ⟨M, hM⟩ := exists_nat_gt (drop p L (nF (G z0.1.1)) / TRRun.trGain (trCfg tol 0) (1 / 2) (L + g) gam tol)
  rw [div_lt_iff₀ htg0] at hM
  obtain ⟨i, hi⟩ := exists_pow_lt_of_lt_one hlr0 (show (1 / 4 : ℝ) < 1 by norm_num)
  refine ⟨(1 + 1) * M + i, fun N hN => ?_⟩
  obtain ⟨s, e1, e2, -, -, e5⟩ := C131_stiefel_rtr_newton hp hp0 junk hh h1 hL h2 h3 z0 (theta := theta) (thr := tol) hk hm hgd hgam (trCfg tol N) htol (by simp [trCfg, htol.le]) htol
    (by norm_num [trCfg]) (by norm_num [trCfg]) (by norm_num [trCfg]) (by norm_num [trCfg]) (by norm_num [trCfg]) (by norm_num [trCfg]) (by norm_num [trCfg])
    (by show (0 : ℝ) ≤ 1 / 4 * _; positivity) rfl (by norm_num [trCfg]) M i 1 (by rw [htg]; exact hM) (by norm_num [trCfg])
    (by rw [hlr]; simpa [trCfg] using hi) hN
  exact ⟨s, e1, e2, e5⟩

/-! ### A concrete case: the ellipse with half axes `1`, `2` on the circle -/

/-- The point `(3/5, 4/5)` with the frame of its Householder reflections. -/
noncomputable def circlePoint : StPoint 2 1 :=
  ⟨(!![3 / 5; 4 / 5], rotHHR !![3 / 5; 4 / 5]), rfl, by
    ext i j; fin_cases i; fin_cases j
    simp [Matrix.mul_apply, Fin.sum_univ_two]; norm_num, _, rotHHR_spec _, rfl⟩

/-- The gradient of the cost at the starting point is not zero, so that the runs of the two examples move. -/
example : proj circlePoint.1.1 (gradOf (Verif.Problem.stieBrockett !![1, 0; 0, 2] (fun _ : Fin 1 => 1)) circlePoint.1.1) ≠ 0 := by
  intro h
  have := congrFun (congrFun h 0) 0
  simp [circlePoint, proj, sym, gradOf, Verif.Problem.stieBrockett, Verif.Problem.colScale, vecMul, dotProduct, Matrix.mul_apply] at this
  norm_num at this

example : ∃ (m : ℝ) (N : ℕ), ∃ s, lsRun (stiefelGeo (by norm_num) (fun _ => 0) rotHHR_spec (costOf (Verif.Problem.stieBrockett !![1, 0; 0, 2] (fun _ : Fin 1 => 1)))
      (gradOf (Verif.Problem.stieBrockett !![1, 0; 0, 2] (fun _ : Fin 1 => 1)))).land (stdCfg (1 / 10 ^ 6) m N) (stdOracle (stiefelGeo (by norm_num) (fun _ => 0) rotHHR_spec (costOf (Verif.Problem.stieBrockett !![1, 0; 0, 2] (fun _ : Fin 1 => 1)))
        (gradOf (Verif.Problem.stieBrockett !![1, 0; 0, 2] (fun _ : Fin 1 => 1))))) circlePoint (N + 1) = .finished s ∧
    nF (proj s.x.1.1 (gradOf (Verif.Problem.stieBrockett !![1, 0; 0, 2] (fun _ : Fin 1 => 1)) s.x.1.1)) < 1 / 10 ^ 6 := by
  obtain ⟨δ, hδ, N, h⟩ := C131_brockett_rsd (n := 2) (p := 1) (by norm_num) (by norm_num) (fun _ => 0) rotHHR_spec (B := !![1, 0; 0, 2]) (by ext i j; fin_cases i <;> fin_cases j <;> rfl) (fun _ => 1)
    circlePoint (tol := 1 / 10 ^ 6) (by norm_num)
  obtain ⟨s, e1, -, e3⟩ := h δ hδ le_rfl N le_rfl
  exact ⟨δ, N, s, e1, e3⟩

example : ∃ N : ℕ, ∃ s, TRRun.run (trCfg (1 / 10 ^ 6) N) (stiefelProb (by norm_num) (fun _ => 0) rotHHR_spec (costOf (Verif.Problem.stieBrockett !![1, 0; 0, 2] (fun _ : Fin 1 => 1)))
      (gradOf (Verif.Problem.stieBrockett !![1, 0; 0, 2] (fun _ : Fin 1 => 1))) (brockettHess !![1, 0; 0, 2] (fun _ : Fin 1 => 1)) circlePoint 1 (1 / 10) 1000 (1 / 10 ^ 6)).env (N + 1) = .finished s ∧
    nF (proj s.x1.1.1 (gradOf (Verif.Problem.stieBrockett !![1, 0; 0, 2] (fun _ : Fin 1 => 1)) s.x1.1.1)) < 1 / 10 ^ 6 := by
  obtain ⟨N, h⟩ := C131_brockett_rtr_newton (n := 2) (p := 1) (by norm_num) (by norm_num) (fun _ => 0) rotHHR_spec (B := !![1, 0; 0, 2]) (by ext i j; fin_cases i <;> fin_cases j <;> rfl) (fun _ => 1)
    circlePoint (tol := 1 / 10 ^ 6) (by norm_num) (theta := 1) (kappa := 1 / 10) (maxInner := 1000) (by norm_num) (by norm_num)
  obtain ⟨s, e1, e2, -⟩ := h N le_rfl
  exact ⟨N, s, e1, e2⟩

end Verif.Obj
