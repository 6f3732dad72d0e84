import Verif.Solver.QuadCG
import Mathlib.Analysis.InnerProductSpace.PiL2

/-!
# C165, C166: the conjugate gradient solver on quadratic functions
-/

namespace Verif.QuadCG

open Verif.Dir
open scoped RealInnerProductSpace Classical

variable {E : Type*} [NormedAddCommGroup E] [InnerProductSpace ℝ E]

/-- The cost function. -/
noncomputable def cost (A : E →ₗ[ℝ] E) (b x : E) : ℝ := ⟪x, A x⟫ / 2 - ⟪b, x⟫

/-- No iterate before the `k`-th is a solution of `A x = b`, that is, has gradient zero: the run has not
stopped before pass `k`. -/
def Running (s : Setup E) (k : Nat) : Prop := ∀ j, j < k → ∀ x, s.iterate j = some x → s.A x ≠ s.b

theorem running_residual (s : Setup E) (hA : SPD s.A) (hc : s.c < 1) (hP : ∀ v, s.P v = v)
    (hm : s.m ≠ .other) (k : Nat) (h : Running s k) :
    ∀ j, j < k → (linearCG s.A s.b s.x0 j).r ≠ 0 := by
  intro j
  induction j using Nat.strong_induction_on with
  | _ j ih =>
    intro hj h0
    obtain ⟨e, hs, -⟩ := state_eq s hA hc hP hm j (fun i hi => ih i hi (by omega))
    refine h j hj (linearCG s.A s.b s.x0 j).x (by simp [Setup.iterate, hs]) ?_
    rw [residual, sub_eq_zero] at h0
    exact h0.symm

/-- C165: with the identity as the preconditioner and exact steps, the iterates of the solver are those of
the linear conjugate gradient method, for each of the six formulas, until a solution is reached. -/
theorem C165_linear_cg (s : Setup E) (hA : SPD s.A) (hc : s.c < 1) (hP : ∀ v, s.P v = v)
    (hm : s.m ≠ .other) (k : Nat) (h : Running s k) :
    s.iterate k = some (linearCG s.A s.b s.x0 k).x := by
  obtain ⟨e, hs, -⟩ := state_eq s hA hc hP hm k (running_residual s hA hc hP hm k h)
  simp [Setup.iterate, hs]

/-- C165: the run reaches the solution after at most as many passes as the space has dimensions; every
earlier iterate is a number and not a solution. -/
theorem C165_ends [FiniteDimensional ℝ E] (s : Setup E) (hA : SPD s.A) (hc : s.c < 1)
    (hP : ∀ v, s.P v = v) (hm : s.m ≠ .other) :
    ∃ k, k ≤ Module.finrank ℝ E ∧ (∃ x, s.iterate k = some x ∧ s.A x = s.b) ∧
      ∀ j, j < k → ∃ y, s.iterate j = some y ∧ s.A y ≠ s.b := by
  have hex : ∃ k, (linearCG s.A s.b s.x0 k).r = 0 := ⟨_, finite_end hA⟩
  have hmin : ∀ j, j < Nat.find hex → (linearCG s.A s.b s.x0 j).r ≠ 0 := fun j hj => Nat.find_min hex hj
  have hit : ∀ j, j ≤ Nat.find hex → s.iterate j = some (linearCG s.A s.b s.x0 j).x := by
    intro j hj
    obtain ⟨e, hs, -⟩ := state_eq s hA hc hP hm j (fun i hi => hmin i (by omega))
    simp [Setup.iterate, hs]
  refine ⟨Nat.find hex, Nat.find_min' hex (finite_end hA), ⟨_, hit _ (le_refl _), ?_⟩, ?_⟩
  · have := Nat.find_spec hex
    rw [residual, sub_eq_zero] at this
    exact this.symm
  · intro j hj
    refine ⟨_, hit j (le_of_lt hj), fun h => hmin j hj ?_⟩
    rw [residual, h, sub_self]

/-- C165: the choice of the formula does not matter. -/
theorem C165_method (s : Setup E) (hA : SPD s.A) (hc : s.c < 1) (hP : ∀ v, s.P v = v)
    (hm : s.m ≠ .other) (m' : Method) (hm' : m' ≠ .other) (k : Nat) (h : Running s k) :
    { s with m := m' }.iterate k = s.iterate k := by
  obtain ⟨e, hs, -⟩ := state_eq s hA hc hP hm k (running_residual s hA hc hP hm k h)
  obtain ⟨e', hs', -⟩ := state_eq { s with m := m' } hA hc hP hm' k
    (running_residual s hA hc hP hm k h)
  simp [Setup.iterate, hs, hs']

/-- C165: the gradients at two different iterates of the run are orthogonal. -/
theorem C165_orthogonal (s : Setup E) (hA : SPD s.A) (hc : s.c < 1) (hP : ∀ v, s.P v = v)
    (hm : s.m ≠ .other) (k : Nat) (h : Running s k) (i j : Nat) (hij : i < j) (hj : j ≤ k) (x y : E)
    (hx : s.iterate i = some x) (hy : s.iterate j = some y) :
    ⟪s.A x - s.b, s.A y - s.b⟫ = 0 := by
  have hr : ∀ n, n ≤ k → Running s n := fun n hn l hl => h l (by omega)
  rw [C165_linear_cg s hA hc hP hm i (hr i (by omega))] at hx
  rw [C165_linear_cg s hA hc hP hm j (hr j hj)] at hy
  obtain rfl := Option.some.inj hx
  obtain rfl := Option.some.inj hy
  have e := orth (A := s.A) (b := s.b) (x0 := s.x0) hA (Nat.ne_of_lt hij)
  rw [residual, residual] at e
  rw [← neg_sub s.b, ← neg_sub s.b (s.A _), inner_neg_left, inner_neg_right, neg_neg]
  exact e

/-- The value of the cost at a displaced point. -/
theorem cost_add (A : E →ₗ[ℝ] E) (hA : SPD A) (b x v : E) :
    cost A b (x + v) = cost A b x + ⟪A x - b, v⟫ + ⟪v, A v⟫ / 2 := by
  have h1 : ⟪x, A v⟫ = ⟪A x, v⟫ := (hA.1 x v).symm
  have h2 : ⟪v, A x⟫ = ⟪A x, v⟫ := real_inner_comm _ _
  simp only [cost, map_add, inner_add_left, inner_add_right, inner_sub_left, h1, h2]
  ring

/-- C165: a point where the gradient vanishes is the only minimiser of the cost. -/
theorem C165_minimiser (A : E →ₗ[ℝ] E) (hA : SPD A) (b x : E) (hx : A x = b) (y : E) (hy : y ≠ x) :
    cost A b x < cost A b y := by
  have e : y = x + (y - x) := by abel
  have hp := hA.2 (y - x) (sub_ne_zero.mpr hy)
  rw [e, cost_add A hA, hx, sub_self, inner_zero_left]
  linarith

/-- C165: the step of the model is the exact minimiser along the direction. -/
theorem C165_exact_step (A : E →ₗ[ℝ] E) (hA : SPD A) (b x d : E) (hd : d ≠ 0) (t : ℝ)
    (ht : t ≠ exactStep A (A x - b) d) :
    cost A b (x + exactStep A (A x - b) d • d) < cost A b (x + t • d) := by
  have hp := hA.2 d hd
  have hs : exactStep A (A x - b) d * ⟪d, A d⟫ = -⟪A x - b, d⟫ := by
    unfold exactStep; exact div_mul_cancel₀ _ hp.ne'
  have hq : 0 < (t - exactStep A (A x - b) d) ^ 2 := by
    have := sub_ne_zero.mpr ht
    positivity
  rw [cost_add A hA, cost_add A hA]
  simp only [map_smul, inner_smul_left, inner_smul_right, conj_trivial]
  generalize exactStep A (A x - b) d = u at *
  have : ⟪A x - b, d⟫ = -(u * ⟪d, A d⟫) := by linarith
  rw [this]
  nlinarith [mul_pos hq hp]

/-! ### A concrete case -/

/-- The matrix `diag(1, 2)`. -/
noncomputable def exA : EuclideanSpace ℝ (Fin 2) →ₗ[ℝ] EuclideanSpace ℝ (Fin 2) where
  toFun v := !₂[v 0, 2 * v 1]
  map_add' u v := by ext i; fin_cases i <;> simp <;> ring
  map_smul' r v := by ext i; fin_cases i <;> simp <;> ring

theorem exA_spd : SPD exA := by
  refine ⟨fun u v => ?_, fun v hv => ?_⟩
  · simp [exA, PiLp.inner_apply, Fin.sum_univ_two]; ring
  · have : v 0 ≠ 0 ∨ v 1 ≠ 0 := by
      by_contra h
      push Not at h
      apply hv
      ext i; fin_cases i <;> simp [h.1, h.2]
    simp only [exA, LinearMap.coe_mk, AddHom.coe_mk, PiLp.inner_apply, Fin.sum_univ_two]
    rcases this with h | h
    · have h1 : 0 < v 0 * v 0 := mul_self_pos.mpr h
      have h2 := mul_self_nonneg (v 1)
      simp; nlinarith
    · have h1 : 0 < v 1 * v 1 := mul_self_pos.mpr h
      have h2 := mul_self_nonneg (v 0)
      simp; nlinarith

/-- A run on the plane with preconditioner `t • v`. -/
noncomputable def exS (t : ℝ) (m : Method) : Setup (EuclideanSpace ℝ (Fin 2)) :=
  ⟨exA, 0, 1 / 100, fun v => t • v, m, !₂[1, 1]⟩

example (m : Method) (hm : m ≠ .other) :
    ∃ k, k ≤ Module.finrank ℝ (EuclideanSpace ℝ (Fin 2)) ∧
      (∃ x, (exS 1 m).iterate k = some x ∧ (exS 1 m).A x = (exS 1 m).b) ∧
      ∀ j, j < k → ∃ y, (exS 1 m).iterate j = some y ∧ (exS 1 m).A y ≠ (exS 1 m).b :=
  C165_ends (exS 1 m) exA_spd (by norm_num [exS]) (fun v => by simp [exS]) hm

/-- The initial point of the example is not a solution, so that the run is a real one. -/
example (m : Method) : (exS 1 m).A (exS 1 m).x0 ≠ (exS 1 m).b := by
  intro h
  have := congrArg (fun v => v 0) h
  simp [exS, exA] at this

/-! ### Preconditioners -/

/-- C166 (partial): with a preconditioner whose product with the Hessian is the identity, one pass reaches
the solution, if the safeguard accepts the first direction. -/
theorem C166_perfect_partial (s : Setup E) (hA : SPD s.A) (hP : ∀ v, s.A (s.P v) = v)
    (hg : s.A s.x0 ≠ s.b)
    (hsafe : s.c * ‖s.A s.x0 - s.b‖ ^ 2 < ⟪s.P (s.A s.x0 - s.b), s.A s.x0 - s.b⟫) :
    ∃ x, s.iterate 1 = some x ∧ s.A x = s.b := by
  set g := s.A s.x0 - s.b with hgdef
  have hg0 : g ≠ 0 := sub_ne_zero.mpr hg
  have hpos := norm_pos_iff.mpr hg0
  have hnd : ¬ notDescent s.c (-s.P g) g := by
    rintro ⟨-, h⟩
    rw [inner_neg_left, div_div, ← pow_two, le_div_iff₀ (by positivity)] at h
    linarith
  have hP0 : s.P g ≠ 0 := by intro h; have := hP g; rw [h, map_zero] at this; exact hg0 this.symm
  have hdd := hA.2 _ hP0
  have hstep : exactStep s.A g (-s.P g) = 1 := by
    unfold exactStep
    rw [map_neg, inner_neg_neg, inner_neg_right, neg_neg, hP, real_inner_comm]
    rw [hP] at hdd
    exact div_self hdd.ne'
  refine ⟨s.x0 + (-s.P g), ?_, ?_⟩
  · simp only [Setup.iterate, Setup.state, Option.bind_some, Setup.pass]
    have : s.grad s.x0 = g := rfl
    simp only [this, rcgDir, true_or, if_true, if_neg hnd, Option.map_some, hstep, one_smul]
  · rw [map_add, map_neg, hP, hgdef]; abel

/-- C166: how far the new direction is from being conjugate to the old one, for the Hestenes-Stiefel formula:
the inner product with the change of the gradient (a multiple of the Hessian times the old direction) is that
of the difference between the preconditioned gradient and the gradient. -/
theorem C166_conjugacy_defect (g1 g2 Pg1 Pg2 d d' : E) (hr : ¬ rcgRestart g1 g2 g1)
    (hy : ⟪g2 - g1, d⟫ ≠ 0) (hu : rcgUpdate .hestenesStiefel g1 g2 Pg1 Pg2 g1 d = some d') :
    ⟪d', g2 - g1⟫ = ⟪Pg2 - g2, g2 - g1⟫ := by
  have key : ∀ σ : ℝ, σ * ⟪g2 - g1, d⟫ = ⟪Pg2, g2 - g1⟫ →
      ⟪-g2 + σ • d, g2 - g1⟫ = ⟪Pg2 - g2, g2 - g1⟫ := by
    intro σ h
    rw [inner_add_left, inner_neg_left, inner_smul_left, real_inner_comm (g2 - g1) d, conj_trivial, h,
      inner_sub_left]
    ring
  simp only [rcgUpdate, if_neg hr, rcgSigma, quot, if_neg hy, Option.map_some] at hu
  have hs : ⟪Pg2, g2 - g1⟫ / ⟪g2 - g1, d⟫ * ⟪g2 - g1, d⟫ = ⟪Pg2, g2 - g1⟫ := div_mul_cancel₀ _ hy
  split at hu
  · rename_i h0
    rw [h0] at hs
    have := key 0 hs
    rw [zero_smul, add_zero] at this
    rw [← Option.some.inj hu]; exact this
  · rw [← Option.some.inj hu]; exact key _ hs

/-- With a positive multiple `t` of the identity as the preconditioner all six formulas give the factor of
the unpreconditioned method at the first update. -/
theorem sigma_scaled (m : Method) (hm : m ≠ .other) (t : ℝ) (ht : 0 < t) (g1 g2 : E) (h1 : g1 ≠ 0)
    (ho : ⟪g2, g1⟫ = 0) :
    rcgSigma m g1 g2 (t • g1) (t • g2) g1 (-(t • g1)) = some (‖g2‖ ^ 2 / ‖g1‖ ^ 2) := by
  have hp : 0 < ‖g1‖ ^ 2 := by have := norm_pos_iff.mpr h1; positivity
  have hne : t * ‖g1‖ ^ 2 ≠ 0 := (mul_pos ht hp).ne'
  have q2 : 0 ≤ ‖g2‖ ^ 2 / ‖g1‖ ^ 2 := by positivity
  have hq : t * ‖g2‖ ^ 2 / (t * ‖g1‖ ^ 2) = ‖g2‖ ^ 2 / ‖g1‖ ^ 2 := mul_div_mul_left _ _ ht.ne'
  have ho' : ⟪g1, g2⟫ = 0 := by rw [real_inner_comm]; exact ho
  have a1 : ⟪g1, t • g1⟫ = t * ‖g1‖ ^ 2 := by rw [inner_smul_right, real_inner_self_eq_norm_sq]
  have a2 : ⟪g2, t • g2⟫ = t * ‖g2‖ ^ 2 := by rw [inner_smul_right, real_inner_self_eq_norm_sq]
  have a3 : ⟪t • g2, g2 - g1⟫ = t * ‖g2‖ ^ 2 := by
    rw [inner_smul_left, inner_sub_right, ho, real_inner_self_eq_norm_sq]; simp
  have a4 : ⟪g2 - g1, -(t • g1)⟫ = t * ‖g1‖ ^ 2 := by
    rw [inner_neg_right, inner_smul_right, inner_sub_left, ho, real_inner_self_eq_norm_sq]; ring
  have a5 : ⟪g2 - g1, t • g2⟫ = t * ‖g2‖ ^ 2 := by rw [real_inner_comm]; exact a3
  have a6 : ⟪-(t • g1), t • g2⟫ = 0 := by
    rw [inner_neg_left, inner_smul_left, inner_smul_right, ho']; simp
  cases m with
  | other => exact absurd rfl hm
  | fletcherReeves => simp only [rcgSigma, quot, a1, a2, if_neg hne, hq]
  | polakRibiere =>
    simp only [rcgSigma, quot, a1, a3, if_neg hne, hq, Option.map_some, if_neg (not_lt.mpr q2)]
  | hestenesStiefel => simp only [rcgSigma, quot, a3, a4, if_neg hne, hq]
  | frPr =>
    have : ¬ ‖g2‖ ^ 2 / ‖g1‖ ^ 2 < -(‖g2‖ ^ 2 / ‖g1‖ ^ 2) := by linarith
    simp only [rcgSigma, quot, a1, a2, a3, if_neg hne, hq, Option.map_some, Option.bind_some,
      if_neg this, lt_irrefl, if_false]
  | daiYuan => simp only [rcgSigma, quot, a2, a4, if_neg hne, hq]
  | hagerZhang =>
    simp only [rcgSigma, quot, a4, if_neg hne, Option.bind_some]
    rw [inner_sub_left, inner_smul_left, a5, a6]
    simp [hq]

/-- C166, negation: if the preconditioner is a multiple `t ≠ 1` of the identity, the second pass never reaches
the solution, whatever the quadratic, the initial iterate and the formula, unless the first already did. (The
preconditioned conjugate gradient method does not depend on such a multiple.) -/
theorem C166_scaled_second_pass (s : Setup E) (hA : SPD s.A) (t : ℝ) (ht : 0 < t) (ht1 : t ≠ 1)
    (hc : s.c < 1) (hct : s.c < t) (hP : ∀ v, s.P v = t • v) (hm : s.m ≠ .other) (hg : s.A s.x0 ≠ s.b)
    (x1 : E) (hx1 : s.iterate 1 = some x1) (h1 : s.A x1 ≠ s.b) :
    ∃ x2, s.iterate 2 = some x2 ∧ s.A x2 ≠ s.b := by
  obtain ⟨g, hgd⟩ : ∃ g, g = s.grad s.x0 := ⟨_, rfl⟩
  have hg0 : g ≠ 0 := by rw [hgd]; exact sub_ne_zero.mpr hg
  have hpos := norm_pos_iff.mpr hg0
  have hn2 : 0 < ‖g‖ ^ 2 := by positivity
  have hd0 : -(t • g) ≠ 0 := neg_ne_zero.mpr (smul_ne_zero ht.ne' hg0)
  have hnd : ¬ notDescent s.c (-(t • g)) g := by
    rintro ⟨-, h⟩
    rw [inner_neg_left, inner_smul_left, div_div, ← pow_two, real_inner_self_eq_norm_sq, conj_trivial,
      le_div_iff₀ hn2] at h
    nlinarith
  obtain ⟨d0, hd0d⟩ : ∃ d, d = -(t • g) := ⟨_, rfl⟩
  have hnd' : ¬ notDescent s.c d0 g := hd0d ▸ hnd
  obtain ⟨u, hu⟩ : ∃ u, u = exactStep s.A g d0 := ⟨_, rfl⟩
  have hAd := hA.2 d0 (hd0d ▸ hd0)
  have hgd0 : ⟪g, d0⟫ = -(t * ‖g‖ ^ 2) := by
    rw [hd0d, inner_neg_right, inner_smul_right, real_inner_self_eq_norm_sq]
  have hum : u * ⟪d0, s.A d0⟫ = t * ‖g‖ ^ 2 := by
    rw [hu]; unfold exactStep; rw [div_mul_cancel₀ _ hAd.ne', hgd0, neg_neg]
  have hs1 : s.state 1 = some (s.x0 + u • d0,
      rcgUpdate s.m g (s.grad (s.x0 + u • d0)) (t • g) (t • s.grad (s.x0 + u • d0)) g d0) := by
    simp only [Setup.state, Option.bind_some, Setup.pass, ← hgd, rcgDir, true_or, if_true, hP,
      ← hd0d, if_neg hnd', Option.map_some, ← hu]
  have ex1 : x1 = s.x0 + u • d0 := by
    simp only [Setup.iterate, hs1, Option.map_some] at hx1
    exact (Option.some.inj hx1).symm
  rw [← ex1] at hs1
  obtain ⟨g1, hg1⟩ : ∃ g1, g1 = s.grad x1 := ⟨_, rfl⟩
  rw [← hg1] at hs1
  have hg10 : g1 ≠ 0 := by rw [hg1]; exact sub_ne_zero.mpr h1
  have hg1p : 0 < ‖g1‖ ^ 2 := by have := norm_pos_iff.mpr hg10; positivity
  have hg1e : g1 = g + u • s.A d0 := by
    rw [hg1, ex1, hgd]; unfold Setup.grad; rw [map_add, map_smul]; abel
  have h1d : ⟪g1, d0⟫ = 0 := by
    rw [hg1e, inner_add_left, inner_smul_left, hA.1, hgd0, conj_trivial, hum]; ring
  have ho : ⟪g1, g⟫ = 0 := by
    rw [hd0d, inner_neg_right, inner_smul_right, neg_eq_zero] at h1d
    exact (mul_eq_zero.mp h1d).resolve_left ht.ne'
  have hr : ¬ rcgRestart g g1 g := by
    unfold rcgRestart
    rw [if_neg (by simpa using hg0), ho]; norm_num
  obtain ⟨σ, hσ⟩ : ∃ σ, σ = ‖g1‖ ^ 2 / ‖g‖ ^ 2 := ⟨_, rfl⟩
  have hσp : σ ≠ 0 := by rw [hσ]; positivity
  have hup : rcgUpdate s.m g g1 (t • g) (t • g1) g d0 = some (-g1 + σ • d0) := by
    simp only [rcgUpdate, if_neg hr, hd0d, sigma_scaled s.m hm t ht g g1 hg0 ho, Option.map_some, ← hσ,
      if_neg hσp]
  rw [hup] at hs1
  obtain ⟨d1, hd1⟩ : ∃ d, d = -g1 + σ • d0 := ⟨_, rfl⟩
  rw [← hd1] at hs1
  have hd1g : ⟪d1, g1⟫ = -‖g1‖ ^ 2 := by
    rw [hd1, inner_add_left, inner_neg_left, inner_smul_left, real_inner_comm g1 d0, h1d,
      real_inner_self_eq_norm_sq]; simp
  have hdir : rcgDir s.c s.P 1 (some d1) g1 = some d1 := by
    unfold rcgDir
    rw [if_neg]
    rintro (h | ⟨e, h, hd⟩)
    · exact absurd h (by norm_num)
    · obtain rfl := Option.some.inj h
      have h2 := hd.2
      rw [hd1g, div_div, ← pow_two, neg_div, div_self hg1p.ne'] at h2
      linarith
  obtain ⟨w, hw⟩ : ∃ w, w = exactStep s.A g1 d1 := ⟨_, rfl⟩
  refine ⟨x1 + w • d1, ?_, ?_⟩
  · show ((s.state 1).bind (s.pass 1)).map Prod.fst = _
    rw [hs1]
    simp only [Option.bind_some, Setup.pass, ← hg1, hdir, Option.map_some, ← hw]
  · intro hsol
    have e : g1 + w • s.A d1 = 0 := by
      have : s.grad (x1 + w • d1) = 0 := sub_eq_zero.mpr hsol
      rw [← this, hg1]; unfold Setup.grad; rw [map_add, map_smul]; abel
    have hw0 : w ≠ 0 := by
      intro h; rw [h, zero_smul, add_zero] at e; exact hg10 e
    have hconj : ⟪s.A d1, d0⟫ = 0 := by
      have := congrArg (fun v => ⟪v, d0⟫) e
      simp only [inner_add_left, h1d, inner_smul_left, conj_trivial, inner_zero_left, zero_add] at this
      exact (mul_eq_zero.mp this).resolve_left hw0
    -- but the inner product is a multiple of `t - 1`
    have hAg : u * ⟪g1, s.A d0⟫ = ‖g1‖ ^ 2 := by
      have : ⟪g1, g1⟫ = ⟪g1, g + u • s.A d0⟫ := by rw [← hg1e]
      rw [inner_add_right, ho, inner_smul_right, real_inner_self_eq_norm_sq] at this
      linarith
    have hz : u * ⟪s.A d1, d0⟫ = (t - 1) * ‖g1‖ ^ 2 := by
      rw [hA.1, hd1, inner_add_left, inner_neg_left, inner_smul_left, conj_trivial]
      have h3 : σ * ‖g‖ ^ 2 = ‖g1‖ ^ 2 := by rw [hσ]; exact div_mul_cancel₀ _ hn2.ne'
      calc u * (-⟪g1, s.A d0⟫ + σ * ⟪d0, s.A d0⟫)
          = -(u * ⟪g1, s.A d0⟫) + σ * (u * ⟪d0, s.A d0⟫) := by ring
        _ = -‖g1‖ ^ 2 + t * (σ * ‖g‖ ^ 2) := by rw [hAg, hum]; ring
        _ = (t - 1) * ‖g1‖ ^ 2 := by rw [h3]; ring
    rw [hconj, mul_zero] at hz
    rcases mul_eq_zero.mp hz.symm with h | h
    · exact ht1 (by linarith)
    · exact hg1p.ne' h

/-- The first iterate of the example with the preconditioner `2 I`. -/
theorem ex_first (m : Method) : (exS 2 m).iterate 1 = some !₂[4 / 9, -1 / 9] := by
  have hg : (exS 2 m).grad (exS 2 m).x0 = !₂[1, 2] := by
    ext i; fin_cases i <;> simp [Setup.grad, exS, exA]
  have hi : ⟪(2 : ℝ) • (!₂[1, 2] : EuclideanSpace ℝ (Fin 2)), !₂[1, 2]⟫ = 10 := by
    simp [PiLp.inner_apply, Fin.sum_univ_two]; norm_num
  have hn : ‖(!₂[1, 2] : EuclideanSpace ℝ (Fin 2))‖ * ‖(!₂[1, 2] : EuclideanSpace ℝ (Fin 2))‖ = 5 := by
    rw [← real_inner_self_eq_norm_mul_norm, PiLp.inner_apply, Fin.sum_univ_two]
    simp; norm_num
  have hnd : ¬ notDescent (1 / 100) (-((2 : ℝ) • (!₂[1, 2] : EuclideanSpace ℝ (Fin 2)))) !₂[1, 2] := by
    rintro ⟨-, h⟩
    rw [inner_neg_left, hi, div_div, hn] at h
    norm_num at h
  have hstep : exactStep exA !₂[1, 2] (-((2 : ℝ) • (!₂[1, 2] : EuclideanSpace ℝ (Fin 2)))) = 5 / 18 := by
    unfold exactStep
    simp [exA, PiLp.inner_apply, Fin.sum_univ_two]; norm_num
  simp only [Setup.iterate, Setup.state, Option.bind_some, Setup.pass, hg, rcgDir, true_or, if_true]
  have hP : (exS 2 m).P = fun v => (2 : ℝ) • v := rfl
  have hA : (exS 2 m).A = exA := rfl
  have hc : (exS 2 m).c = 1 / 100 := rfl
  simp only [hP, hA, hc, if_neg hnd, hstep, Option.map_some]
  congr 1
  ext i; fin_cases i <;> simp [exS] <;> norm_num

/-- C166, negation: a run on the plane with a symmetric positive definite preconditioner that has not reached
the solution after two passes, for each of the six formulas. -/
theorem C166_not_finite (m : Method) (hm : m ≠ .other) :
    SPD (exS 2 m).A ∧ Module.finrank ℝ (EuclideanSpace ℝ (Fin 2)) = 2 ∧
      ∃ x, (exS 2 m).iterate 2 = some x ∧ (exS 2 m).A x ≠ (exS 2 m).b := by
  refine ⟨exA_spd, by simp, ?_⟩
  refine C166_scaled_second_pass (exS 2 m) exA_spd 2 (by norm_num) (by norm_num) (by norm_num [exS])
    (by norm_num [exS]) (fun v => rfl) hm ?_ _ (ex_first m) ?_
  · intro h
    have := congrArg (fun v => v 0) h
    simp [exS, exA] at this
  · intro h
    have := congrArg (fun v => v 0) h
    norm_num [exS, exA] at this

/-- The perfect preconditioner of the example. -/
example (m : Method) : ∃ x, (⟨exA, 0, 1 / 100, fun v => !₂[v 0, v 1 / 2], m, !₂[1, 1]⟩ :
    Setup (EuclideanSpace ℝ (Fin 2))).iterate 1 = some x ∧ exA x = 0 := by
  refine C166_perfect_partial (⟨exA, 0, 1 / 100, fun v => !₂[v 0, v 1 / 2], m, !₂[1, 1]⟩ :
    Setup (EuclideanSpace ℝ (Fin 2))) exA_spd (fun v => ?_) ?_ ?_
  · ext i; fin_cases i <;> simp [exA]; ring
  · intro h
    have := congrArg (fun v => v 0) h
    simp [exA] at this
  · rw [← real_inner_self_eq_norm_sq, PiLp.inner_apply, PiLp.inner_apply, Fin.sum_univ_two,
      Fin.sum_univ_two]
    simp [exA]; norm_num

/-- The defect formula on a case with a defect. -/
example : ¬ rcgRestart (1 : ℝ) 0 1 ∧ ⟪(0 : ℝ) - 1, 5⟫ ≠ 0 ∧
    rcgUpdate .hestenesStiefel (1 : ℝ) 0 3 2 1 5 = some 2 := by
  have hr : ¬ rcgRestart (1 : ℝ) 0 1 := by simp [rcgRestart]
  refine ⟨hr, by simp, ?_⟩
  simp only [rcgUpdate, if_neg hr, rcgSigma, quot]
  norm_num

end Verif.QuadCG
