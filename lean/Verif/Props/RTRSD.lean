import Verif.Props.TRQuad

/-!
# C174: what RTRSD does

`RTRSD` replaces the Hessian by the identity (`Solvers/RTRSD.cpp:28-32`); without a preconditioner the inner solver then has
its answer after one pass. The theorems say which step that is, what a positive `Min_Inner_Iter` makes of it, and
what a run does on quadratic functions.
-/

namespace Verif.TR

open scoped RealInnerProductSpace Classical

open Verif.TRRun (Status)

open Verif.QN (IsSym IsSPD)

section
variable {E : Type*} [NormedAddCommGroup E] [InnerProductSpace ℝ E] {L : Local E}

/-- The inner solver of `RTRSD` without a preconditioner: both operators are the identity (`RTRSD.cpp:28-32`,
`Problem::PreConditioner`). -/
structure IsSD (L : Local E) : Prop where
  H : ∀ v, L.H v = v
  P : ∀ v, L.P v = v

theorem IsSD.first (h : IsSD L) (hg : L.g ≠ 0) :
    ⟪L.start.delta, L.H L.start.delta⟫ = ‖L.g‖ * ‖L.g‖ ∧ L.start.zr = ‖L.g‖ * ‖L.g‖ ∧ 0 < ‖L.g‖ * ‖L.g‖ := by
  have hn : 0 < ‖L.g‖ := norm_pos_iff.mpr hg
  refine ⟨?_, ?_, mul_pos hn hn⟩
  · simp only [Local.start, h.H, h.P, inner_neg_neg, real_inner_self_eq_norm_mul_norm]
  · simp only [Local.start, h.P, real_inner_self_eq_norm_mul_norm]

/-- The first pass of the inner solver. -/
theorem IsSD.pass (h : IsSD L) (hg : L.g ≠ 0) (n : Nat) :
    tcg L (n + 1) 0 L.start =
      if L.Delta * L.Delta ≤ ‖L.g‖ * ‖L.g‖ then
        (tau L.Delta L.start).map fun t => (t • (-L.g), Status.excRegion)
      else if L.minInner = 0 ∧ 0 ≤ L.tol then some (-L.g, L.conv)
      else tcg L n 1 (cgDir L (cgMove L L.start 1) 1 (‖L.g‖ * ‖L.g‖)) := by
  obtain ⟨h1, h2, h3⟩ := h.first hg
  have ha : L.start.zr / ⟪L.start.delta, L.H L.start.delta⟫ = 1 := by rw [h1, h2, div_self h3.ne']
  have he : ePeNew L.start 1 = ‖L.g‖ * ‖L.g‖ := by
    simp [ePeNew, Local.start, h.P, pow_two]
  have hd : L.start.delta = -L.g := by simp [Local.start, h.P]
  have hr : (cgMove L L.start 1).r = 0 := by simp [cgMove, Local.start, h.P, h.H]
  have hm : (cgMove L L.start 1).modelv = -(‖L.g‖ * ‖L.g‖) / 2 := by
    simp only [cgMove, Local.start, h.P, h.H, one_smul, zero_add, inner_neg_left, inner_neg_right, neg_neg,
      real_inner_self_eq_norm_mul_norm]
    ring
  have heta : (cgMove L L.start 1).eta = -L.g := by simp [cgMove, Local.start, h.P]
  rw [tcg]
  simp only [ha, he]
  by_cases hD : L.Delta * L.Delta ≤ ‖L.g‖ * ‖L.g‖
  · rw [if_pos (Or.inr hD), if_pos hD]
    have e0 : L.start.eta = 0 := rfl
    rw [h1, if_neg (not_lt.mpr h3.le), e0, hd]
    simp only [zero_add]
  · have hdHd : ¬ (⟪L.start.delta, L.H L.start.delta⟫ ≤ 0) := by rw [h1]; exact not_le.mpr h3
    rw [if_neg (not_or.mpr ⟨hdHd, hD⟩), if_neg hD]
    have hmv : ¬ (L.start.modelv ≤ (cgMove L L.start 1).modelv) := by
      rw [hm]
      have : L.start.modelv = 0 := rfl
      rw [this]; linarith
    rw [if_neg hmv, hr, norm_zero, heta]
    have hz : ¬ (L.start.zr = 0) := by rw [h2]; exact h3.ne'
    simp only [Nat.le_zero, if_neg hz]

/-- **C174.** The step of `RTRSD`, radius at most the norm of the gradient: down the gradient to the boundary. -/
theorem C174_boundary (h : IsSD L) (hg : L.g ≠ 0) (hD : 0 < L.Delta) (hle : L.Delta ≤ ‖L.g‖) (n : Nat) :
    tCG L (n + 1) = some (-(L.Delta / ‖L.g‖) • L.g, Status.excRegion) := by
  have hn : 0 < ‖L.g‖ := norm_pos_iff.mpr hg
  have ht : tau L.Delta L.start = some (L.Delta / ‖L.g‖) := by
    have hd : L.start.dPd = ‖L.g‖ * ‖L.g‖ := by simp [Local.start, h.P, pow_two]
    have e1 : L.start.ePd = 0 := rfl
    have e2 : L.start.ePe = 0 := rfl
    have harg : (0 : ℝ) * 0 + ‖L.g‖ * ‖L.g‖ * (L.Delta * L.Delta - 0) = (‖L.g‖ * L.Delta) * (‖L.g‖ * L.Delta) := by ring
    simp only [tau, hd, e1, e2, harg]
    rw [if_neg (not_or.mpr ⟨(mul_pos hn hn).ne', not_lt.mpr (mul_self_nonneg _)⟩),
      Real.sqrt_mul_self (mul_pos hn hD).le]
    congr 1
    field_simp
    ring
  rw [tCG, h.pass hg, if_pos (mul_self_le_mul_self hD.le hle), ht]
  simp

/-- **C174.** Radius larger than the norm of the gradient and `Min_Inner_Iter = 0`: the step is the negative gradient, however
large the radius is. -/
theorem C174_inside (h : IsSD L) (hg : L.g ≠ 0) (hk : 0 ≤ L.kappa) (hlt : ‖L.g‖ < L.Delta) (hmin : L.minInner = 0) (n : Nat) :
    tCG L (n + 1) = some (-L.g, L.conv) := by
  have hD : ¬ (L.Delta * L.Delta ≤ ‖L.g‖ * ‖L.g‖) := not_le.mpr (mul_self_lt_mul_self (norm_nonneg _) hlt)
  rw [tCG, h.pass hg, if_neg hD, if_pos ⟨hmin, tol_nonneg hk⟩]

/-- **C174.** With a positive `Min_Inner_Iter`, a legal value, and at least two passes allowed, the inner solver divides zero by
zero as soon as the radius exceeds the norm of the gradient: the second pass starts from the residual zero. -/
theorem C174_breakdown (h : IsSD L) (hg : L.g ≠ 0) (hlt : ‖L.g‖ < L.Delta) (hmin : 0 < L.minInner) (n : Nat) :
    tCG L (n + 2) = none := by
  have hD : ¬ (L.Delta * L.Delta ≤ ‖L.g‖ * ‖L.g‖) := not_le.mpr (mul_self_lt_mul_self (norm_nonneg _) hlt)
  have hr : (cgMove L L.start 1).r = 0 := by simp [cgMove, Local.start, h.P, h.H]
  have hnot : ¬ (L.minInner = 0 ∧ 0 ≤ L.tol) := fun ⟨a, _⟩ => hmin.ne' a
  rw [tCG, h.pass hg, if_neg hD, if_neg hnot, tcg]
  have hdel : (cgDir L (cgMove L L.start 1) 1 (‖L.g‖ * ‖L.g‖)).delta = 0 := by
    simp [cgDir, hr]
  have hdPd : (cgDir L (cgMove L L.start 1) 1 (‖L.g‖ * ‖L.g‖)).dPd = 0 := by
    simp [cgDir, hr]
  simp only [hdel, inner_zero_left, le_refl, true_or, if_true]
  simp [tau, hdPd]

/-- With one pass allowed nothing goes wrong. -/
theorem C174_single (h : IsSD L) (hg : L.g ≠ 0) (hlt : ‖L.g‖ < L.Delta) (hmin : 0 < L.minInner) :
    tCG L 1 = some (-L.g, Status.maxIter) := by
  have hD : ¬ (L.Delta * L.Delta ≤ ‖L.g‖ * ‖L.g‖) := not_le.mpr (mul_self_lt_mul_self (norm_nonneg _) hlt)
  have hnot : ¬ (L.minInner = 0 ∧ 0 ≤ L.tol) := fun ⟨a, _⟩ => hmin.ne' a
  rw [tCG, h.pass hg, if_neg hD, if_neg hnot, tcg]
  simp [cgDir, cgMove, Local.start, h.P]

end

/-! ## Runs on a manifold -/

section
variable {X : Type} {T : X → Type} [∀ x, NormedAddCommGroup (T x)] [∀ x, InnerProductSpace ℝ (T x)] {p : Prob X T}

/-- The problem as `RTRSD` sees it, without a preconditioner. -/
structure SDProb (p : Prob X T) : Prop where
  H : ∀ x v, p.H x v = v
  P : ∀ x v, p.P x v = v
  kappa : 0 ≤ p.kappa
  maxInner : 0 < p.maxInner

theorem SDProb.local (h : SDProb p) (x : X) (D : ℝ) : IsSD (p.local x D) := ⟨h.H x, h.P x⟩

/-- The length of the step in units of the gradient. -/
noncomputable def sdStep (g D : ℝ) : ℝ := min 1 (D / g)

theorem sdStep_pos {g D : ℝ} (hg : 0 < g) (hD : 0 < D) : 0 < sdStep g D := lt_min one_pos (div_pos hD hg)

theorem sdStep_le (g D : ℝ) : sdStep g D ≤ 1 := min_le_left _ _

/-- **C174.** At a point with nonzero gradient the trial point of a pass is the retraction of a multiple of the negative gradient;
the factor is the radius divided by the norm of the gradient, but never more than one. -/
theorem C174_trial (h : SDProb p) (hmin : p.minInner = 0) (x : X) {D : ℝ} (hD : 0 < D) (hg : p.g x ≠ 0) :
    ∃ st, p.cand x D = ⟨p.retr x (-(sdStep ‖p.g x‖ D) • p.g x),
      -(sdStep ‖p.g x‖ D * (1 - sdStep ‖p.g x‖ D / 2) * (‖p.g x‖ * ‖p.g x‖)), st, true, .nan⟩ := by
  have hn : 0 < ‖p.g x‖ := norm_pos_iff.mpr hg
  obtain ⟨n, hm⟩ : ∃ n, p.maxInner = n + 1 := ⟨p.maxInner - 1, by have := h.maxInner; omega⟩
  have key : ∀ t : ℝ, ⟪-t • p.g x, p.g x + (1 / 2 : ℝ) • p.H x (-t • p.g x)⟫ = -(t * (1 - t / 2) * (‖p.g x‖ * ‖p.g x‖)) := by
    intro t
    rw [h.H, inner_add_right, inner_smul_right, real_inner_smul_left, real_inner_smul_left, inner_smul_right,
      real_inner_self_eq_norm_mul_norm]
    ring
  have fin : ∀ t st, tCG (p.local x D) p.maxInner = some (-t • p.g x, st) →
      p.cand x D = ⟨p.retr x (-t • p.g x), -(t * (1 - t / 2) * (‖p.g x‖ * ‖p.g x‖)), st, true, .nan⟩ := by
    intro t st e
    unfold Prob.cand
    rw [e]
    simp only [key]
  rcases le_or_gt D ‖p.g x‖ with hle | hlt
  · have e : sdStep ‖p.g x‖ D = D / ‖p.g x‖ := min_eq_right ((div_le_one hn).mpr hle)
    refine ⟨.excRegion, ?_⟩
    rw [e]
    exact fin _ _ (by rw [hm]; exact C174_boundary (L := p.local x D) (h.local x D) hg hD hle n)
  · have e : sdStep ‖p.g x‖ D = 1 := min_eq_left ((one_le_div hn).mpr hlt.le)
    refine ⟨(p.local x D).conv, ?_⟩
    rw [e]
    refine fin 1 _ ?_
    rw [hm, C174_inside (L := p.local x D) (h.local x D) hg h.kappa hlt hmin n]
    simp [Prob.local]

/-- **C174.** With a positive `Min_Inner_Iter` the run is over at the first point where the radius exceeds the norm of the
gradient: the pass stops with that point. -/
theorem C174_run_breaks (h : SDProb p) (hmin : 0 < p.minInner) (hmax : 2 ≤ p.maxInner) (C : TRRun.Cfg ℝ) (s : TRRun.St ℝ X)
    (hg : p.g s.x1 ≠ 0) (hlt : ‖p.g s.x1‖ < s.Delta) :
    ∃ v, TRRun.pass C p.env s = .stop { s with f2 := v } := by
  obtain ⟨n, hm⟩ : ∃ n, p.maxInner = n + 2 := ⟨p.maxInner - 2, by omega⟩
  have hc : p.cand s.x1 s.Delta = ⟨s.x1, 0, .error, false, .nan⟩ := by
    unfold Prob.cand
    rw [hm, C174_breakdown (L := p.local s.x1 s.Delta) (h.local _ _) hg hlt hmin n]
  refine ⟨p.f s.x1, ?_⟩
  have e1 : p.env.cand s.iter s.x1 s.Delta = p.cand s.x1 s.Delta := rfl
  simp only [TRRun.pass, e1, hc, Bool.not_false, if_true]
  rfl

/-- **C174.** In particular a run whose initial radius exceeds the norm of the initial gradient returns the initial point after no
iteration. -/
theorem C174_run_returns_start (h : SDProb p) (hmin : 0 < p.minInner) (hmax : 2 ≤ p.maxInner) (C : TRRun.Cfg ℝ)
    (hg : p.g p.x0 ≠ 0) (hlt : ‖p.g p.x0‖ < C.initialDelta) (fuel : Nat) :
    ∃ s, TRRun.run C p.env (fuel + 1) = .finished s ∧ s.x1 = p.x0 ∧ s.iter = 0 := by
  obtain ⟨v, hv⟩ := C174_run_breaks h hmin hmax C (TRRun.St.init C p.env) hg hlt
  simp only [TRRun.run, TRRun.loop, hv]
  split
  · exact ⟨_, rfl, rfl, rfl⟩
  · exact ⟨_, rfl, rfl, rfl⟩

end

/-! ## Quadratic functions -/

section
variable {V : Type} [NormedAddCommGroup V] [InnerProductSpace ℝ V]

/-- The quadratic function `<x, A x> / 2 - <b, x>` on a Euclidean space as `RTRSD` sees it. -/
structure SDQuadratic (p : Prob V (fun _ => V)) (A : V →ₗ[ℝ] V) (b : V) : Prop extends SDProb p where
  sym : IsSym A
  f : ∀ x, p.f x = ⟪x, A x⟫ / 2 - ⟪b, x⟫
  g : ∀ x, p.g x = A x - b
  retr : ∀ x v, p.retr x v = x + v

variable {p : Prob V (fun _ => V)} {A : V →ₗ[ℝ] V} {b : V}

theorem SDQuadratic.change (q : SDQuadratic p A b) (x : V) (t : ℝ) :
    p.f x - p.f (x + -t • p.g x) = t * (‖p.g x‖ * ‖p.g x‖) - t * t / 2 * ⟪p.g x, A (p.g x)⟫ := by
  have h1 : ∀ v, p.f (x + v) - p.f x = ⟪v, p.g x⟫ + 1 / 2 * ⟪v, A v⟫ := by
    intro v
    have h1 : ⟪x, A v⟫ = ⟪A x, v⟫ := (q.sym x v).symm
    have h2 : ⟪v, A x⟫ = ⟪A x, v⟫ := real_inner_comm _ _
    have h3 : ⟪v, b⟫ = ⟪b, v⟫ := real_inner_comm _ _
    simp only [q.f, q.g, map_add, inner_add_left, inner_add_right, inner_sub_right, h1, h2, h3]
    ring
  have h2 := h1 (-t • p.g x)
  rw [map_smul, real_inner_smul_left, real_inner_smul_left, inner_smul_right, real_inner_self_eq_norm_mul_norm] at h2
  linarith

/-- **C174.** On a quadratic function the ratio that decides on a trial point is `(2 - t R) / (2 - t)`, with the length `t` of
the step in units of the gradient and the curvature `R` along the gradient. -/
theorem C174_ratio (q : SDQuadratic p A b) (hmin : p.minInner = 0) (x : V) {D : ℝ} (hD : 0 < D) (hg : A x ≠ b) :
    (p.cand x D).finite = true ∧ (p.cand x D).x2 = x + -(sdStep ‖p.g x‖ D) • p.g x ∧
    TRRun.ratio (p.f x) (p.f (p.cand x D).x2) (p.cand x D) =
      .num ((2 - sdStep ‖p.g x‖ D * (⟪p.g x, A (p.g x)⟫ / (‖p.g x‖ * ‖p.g x‖))) / (2 - sdStep ‖p.g x‖ D)) := by
  have hg' : p.g x ≠ 0 := by rw [q.g]; exact sub_ne_zero.mpr hg
  have hn : 0 < ‖p.g x‖ := norm_pos_iff.mpr hg'
  obtain ⟨st, hc⟩ := C174_trial q.toSDProb hmin x hD hg'
  have ht := sdStep_pos hn hD
  have ht1 := sdStep_le ‖p.g x‖ D
  rw [hc]
  set t := sdStep ‖p.g x‖ D with htd
  refine ⟨rfl, q.retr _ _, ?_⟩
  have hpos : 0 < t * (1 - t / 2) * (‖p.g x‖ * ‖p.g x‖) := mul_pos (mul_pos ht (by linarith)) (mul_pos hn hn)
  show (if -(t * (1 - t / 2) * (‖p.g x‖ * ‖p.g x‖)) = 0 then _ else
    TRRun.Ratio.num ((p.f x - p.f (p.retr x (-t • p.g x))) / (- -(t * (1 - t / 2) * (‖p.g x‖ * ‖p.g x‖))))) = _
  rw [if_neg (by linarith), q.retr, q.change]
  congr 1
  have h2 : (2 : ℝ) - t ≠ 0 := by linarith
  have h3 : (1 : ℝ) - t / 2 ≠ 0 := by linarith
  rw [neg_neg, div_eq_div_iff hpos.ne' h2]
  field_simp

/-- **C174.** A trial point has a lower value exactly when the step is shorter than twice the inverse curvature. -/
theorem C174_decrease_iff (q : SDQuadratic p A b) (hmin : p.minInner = 0) (x : V) {D : ℝ} (hD : 0 < D) (hg : A x ≠ b) :
    p.f (p.cand x D).x2 < p.f x ↔ sdStep ‖p.g x‖ D * ⟪p.g x, A (p.g x)⟫ < 2 * (‖p.g x‖ * ‖p.g x‖) := by
  have hg' : p.g x ≠ 0 := by rw [q.g]; exact sub_ne_zero.mpr hg
  have hn : 0 < ‖p.g x‖ := norm_pos_iff.mpr hg'
  have ht := sdStep_pos hn hD
  obtain ⟨-, h2, -⟩ := C174_ratio q hmin x hD hg
  rw [h2]
  have := q.change x (sdStep ‖p.g x‖ D)
  set t := sdStep ‖p.g x‖ D
  constructor
  · intro h
    have h3 : 0 < t * (‖p.g x‖ * ‖p.g x‖ - t / 2 * ⟪p.g x, A (p.g x)⟫) := by linarith
    have := (mul_pos_iff_of_pos_left ht).mp h3
    linarith
  · intro h
    have : 0 < t * (‖p.g x‖ * ‖p.g x‖ - t / 2 * ⟪p.g x, A (p.g x)⟫) := mul_pos ht (by linarith)
    linarith

/-- The gradient after a step. -/
theorem SDQuadratic.next (q : SDQuadratic p A b) (x : V) (t : ℝ) : p.g (x + -t • p.g x) = p.g x - t • A (p.g x) := by
  rw [q.g (x + _), map_add, map_smul, q.g x, neg_smul]
  abel

/-- The radius stays positive. -/
theorem radius_pos {C : TRRun.Cfg ℝ} (hmax : 0 < C.maximumDelta) (hmag : 0 < C.magnified) (hs : 0 < C.shrinked) {D0 : ℝ}
    (h0 : 0 < D0) {rho : TRRun.Ratio ℝ} {st : Status} {acc : Bool} {D : ℝ} (hD : TRRun.radius C rho st acc D0 = some D) : 0 < D := by
  unfold TRRun.radius at hD
  by_cases h1 : rho.gt (3 / 4) = true
  · rw [if_pos h1] at hD
    simp only [Option.some.injEq] at hD
    subst hD
    have h2 : 0 < D0 * C.magnified := mul_pos h0 hmag
    split <;> split <;> assumption
  · rw [if_neg h1] at hD
    by_cases h2 : (rho.lt (1 / 4) && !acc) = true
    · rw [if_pos h2] at hD
      by_cases h3 : D0 * C.shrinked < C.minimumDelta
      · simp [h3] at hD
      · simp only [if_neg h3, Option.some.injEq] at hD
        subst hD; exact mul_pos h0 hs
    · rw [if_neg h2] at hD
      simp only [Option.some.injEq] at hD
      subst hD; exact h0

/-- The parameters of the radius are positive, as `CheckParams` asks. -/
structure PosRadii (C : TRRun.Cfg ℝ) : Prop where
  initial : 0 < C.initialDelta
  maximum : 0 < C.maximumDelta
  magnified : 0 < C.magnified
  shrinked : 0 < C.shrinked

theorem delta_pos {X : Type} {C : TRRun.Cfg ℝ} {E : TRRun.Env ℝ X} (hC : PosRadii C) {s : TRRun.St ℝ X} (h : TRRun.Reaches C E s) :
    0 < s.Delta := by
  induction h with
  | init => exact hC.initial
  | @step s s' hr _ hp ih =>
    obtain ⟨D, hD, ⟨-, hw⟩ | ⟨-, hw⟩⟩ := TRRun.pass_next hp
    · rw [(TRRun.writeHist_next hw).2.2.2.2.2.2.1]
      exact radius_pos hC.maximum hC.magnified hC.shrinked ih hD
    · rw [(TRRun.writeHist_next hw).2.2.2.2.2.2.1]
      exact radius_pos hC.maximum hC.magnified hC.shrinked ih hD

/-- At a point with zero gradient a pass does not come back. -/
theorem SDQuadratic.ne_of_next (q : SDQuadratic p A b) {C : TRRun.Cfg ℝ} {s s' : TRRun.St ℝ V}
    (hp : TRRun.pass C p.env s = .next s') : A s.x1 ≠ b := by
  intro h0
  have hg : p.g s.x1 = 0 := by rw [q.g, h0, sub_self]
  have hf := TRRun.pass_next_finite hp
  obtain ⟨n, hm⟩ : ∃ n, p.maxInner = n + 1 := ⟨p.maxInner - 1, by have := q.maxInner; omega⟩
  have hn : tCG (p.local s.x1 s.Delta) p.maxInner = none := by
    have hl : (p.local s.x1 s.Delta).g = 0 := hg
    rw [hm, tCG, tcg]
    simp [Local.start, hl, tau]
  have : (p.cand s.x1 s.Delta).finite = false := by
    unfold Prob.cand
    rw [hn]
  have e : (p.env.cand s.iter s.x1 s.Delta).finite = (p.cand s.x1 s.Delta).finite := rfl
  rw [e, this] at hf
  exact absurd hf (by decide)

/-- **C174.** On a quadratic function whose curvatures are at most one, `RTRSD` never rejects a trial point: in no state of no
run. -/
theorem C174_never_rejects (q : SDQuadratic p A b) (hmin : p.minInner = 0) (hA : ∀ v, ⟪v, A v⟫ ≤ ‖v‖ * ‖v‖) (C : TRRun.Cfg ℝ)
    (hC : PosRadii C) (hrho : C.acceptRho < 1) {s : TRRun.St ℝ V} (h : TRRun.Reaches C p.env s) : s.streak = 0 := by
  induction h with
  | init => rfl
  | @step s s' hr _ hp _ =>
    have hD := delta_pos hC hr
    have hne := q.ne_of_next hp
    have hn : 0 < ‖p.g s.x1‖ := norm_pos_iff.mpr (by rw [q.g]; exact sub_ne_zero.mpr hne)
    have hb : s.f1 = p.f s.x1 := (TRRun.reaches_basic hr).1
    obtain ⟨-, -, c3⟩ := C174_ratio q hmin s.x1 hD hne
    obtain ⟨D, -, ⟨-, hw⟩ | ⟨hacc, hw⟩⟩ := TRRun.pass_next hp
    · rw [(TRRun.writeHist_next hw).2.2.2.2.2.2.2.2.1]; rfl
    · exfalso
      have e1 : p.env.cand s.iter s.x1 s.Delta = p.cand s.x1 s.Delta := rfl
      have e2 : p.env.f = p.f := rfl
      rw [e1, e2, hb, c3] at hacc
      have ht := sdStep_pos hn hD
      have ht1 := sdStep_le ‖p.g s.x1‖ s.Delta
      set t := sdStep ‖p.g s.x1‖ s.Delta
      have hR : ⟪p.g s.x1, A (p.g s.x1)⟫ / (‖p.g s.x1‖ * ‖p.g s.x1‖) ≤ 1 := (div_le_one (mul_pos hn hn)).mpr (hA _)
      have hr1 : 1 ≤ (2 - t * (⟪p.g s.x1, A (p.g s.x1)⟫ / (‖p.g s.x1‖ * ‖p.g s.x1‖))) / (2 - t) := by
        rw [le_div_iff₀ (by linarith)]
        have := mul_le_mul_of_nonneg_left hR ht.le
        linarith
      simp only [TRRun.accepts, Bool.or_eq_false_iff, TRRun.Ratio.gt, decide_eq_false_iff_not] at hacc
      exact hacc.1.1 (by linarith)

/-- **C174.** On a quadratic function whose curvatures are at most `a ≤ 1` the norm of the gradient falls by at most the
factor `1 - a` per iteration, in every state of every run, whatever the radii and the other parameters: the number of
iterations grows like `1 / a`, although no trial point is rejected. -/
theorem C174_slow (q : SDQuadratic p A b) {a : ℝ} (ha1 : a ≤ 1) (hA : ∀ v, ‖A v‖ ≤ a * ‖v‖) (C : TRRun.Cfg ℝ)
    (hmin : p.minInner = 0) (hC : PosRadii C)
    {s : TRRun.St ℝ V} (h : TRRun.Reaches C p.env s) : (1 - a) ^ s.iter * ‖p.g p.x0‖ ≤ ‖p.g s.x1‖ := by
  induction h with
  | init => simp [TRRun.St.init, Prob.env]
  | @step s s' hr _ hp ih =>
    have hD := delta_pos hC hr
    have hne := q.ne_of_next hp
    have hn : 0 < ‖p.g s.x1‖ := norm_pos_iff.mpr (by rw [q.g]; exact sub_ne_zero.mpr hne)
    have ha : 0 ≤ a := nonneg_of_mul_nonneg_left ((norm_nonneg _).trans (hA (p.g s.x1))) hn
    have hfac : 0 ≤ 1 - a := by linarith
    have hstep : (1 - a) ^ (s.iter + 1) * ‖p.g p.x0‖ ≤ (1 - a) * ‖p.g s.x1‖ := by
      rw [pow_succ', mul_assoc]
      exact mul_le_mul_of_nonneg_left ih hfac
    obtain ⟨D, -, ⟨-, hw⟩ | ⟨-, hw⟩⟩ := TRRun.pass_next hp
    · obtain ⟨w1, -, w3, -⟩ := TRRun.writeHist_next hw
      have hx : s'.x1 = s.x1 + -(sdStep ‖p.g s.x1‖ s.Delta) • p.g s.x1 :=
        w3.trans (C174_ratio q hmin s.x1 hD hne).2.1
      have hi : s'.iter = s.iter + 1 := w1
      rw [hx, hi, q.next]
      have ht := sdStep_pos hn hD
      have ht1 := sdStep_le ‖p.g s.x1‖ s.Delta
      set t := sdStep ‖p.g s.x1‖ s.Delta
      have h1 : ‖t • A (p.g s.x1)‖ ≤ a * ‖p.g s.x1‖ := by
        rw [norm_smul, Real.norm_of_nonneg ht.le]
        calc t * ‖A (p.g s.x1)‖ ≤ 1 * ‖A (p.g s.x1)‖ := mul_le_mul_of_nonneg_right ht1 (norm_nonneg _)
          _ ≤ a * ‖p.g s.x1‖ := by rw [one_mul]; exact hA _
      have h2 := norm_sub_norm_le (p.g s.x1) (t • A (p.g s.x1))
      linarith
    · obtain ⟨w1, -, w3, -⟩ := TRRun.writeHist_next hw
      have hx : s'.x1 = s.x1 := w3
      have hi : s'.iter = s.iter + 1 := w1
      rw [hx, hi]
      refine hstep.trans ?_
      have := mul_nonneg ha hn.le
      linarith

end

/-! ## Concrete cases -/

/-- The quadratic function `a x² / 2 - 3 x` on the line, from the point one, as `RTRSD` sees it. -/
noncomputable def sdLine (a : ℝ) (minInner : Nat) : Prob ℝ (fun _ => ℝ) where
  f x := x * (a * x) / 2 - 3 * x
  g x := a * x - 3
  H _ := LinearMap.id
  P _ := LinearMap.id
  retr x v := x + v
  x0 := 1
  theta := 1 / 10
  kappa := 9 / 10
  minInner := minInner
  maxInner := 5
  stopped0 := false
  stopped _ _ _ := false

theorem sdLine_quadratic (a : ℝ) (m : Nat) : SDQuadratic (sdLine a m) (a • LinearMap.id) 3 where
  H _ _ := rfl
  P _ _ := rfl
  kappa := by norm_num [sdLine]
  maxInner := by norm_num [sdLine]
  sym u v := by simp; ring
  f x := by simp [sdLine]; ring
  g x := by simp [sdLine]
  retr x v := rfl

/-- Radius five, gradient `-1`: with `Min_Inner_Iter = 1` the run returns the initial point at once. -/
example (C : TRRun.Cfg ℝ) (h : C.initialDelta = 5) (fuel : Nat) :
    ∃ s, TRRun.run C (sdLine 2 1).env (fuel + 1) = .finished s ∧ s.x1 = 1 ∧ s.iter = 0 :=
  C174_run_returns_start (sdLine_quadratic 2 1).toSDProb (by norm_num [sdLine]) (by norm_num [sdLine]) C
    (by norm_num [sdLine]) (by rw [h]; norm_num [sdLine]) fuel

/-- Curvature one thousandth: after any number of iterations the gradient is at least that power of `0.999` of the initial
one, and no trial point was rejected. -/
example (C : TRRun.Cfg ℝ) (hC : PosRadii C) (hrho : C.acceptRho < 1) {s : TRRun.St ℝ ℝ}
    (h : TRRun.Reaches C (sdLine (1 / 1000) 0).env s) :
    s.streak = 0 ∧ (1 - 1 / 1000) ^ s.iter * ‖(sdLine (1 / 1000) 0).g 1‖ ≤ ‖(sdLine (1 / 1000) 0).g s.x1‖ := by
  refine ⟨C174_never_rejects (sdLine_quadratic _ _) rfl (fun v => ?_) C hC hrho h,
    C174_slow (sdLine_quadratic _ _) (by norm_num) (fun v => ?_) C rfl hC h⟩
  · simp
    nlinarith [sq_nonneg v, mul_self_nonneg v]
  · simp

/-- Curvature four: the full step from a point with gradient one inside a large region raises the cost. -/
example : ¬ ((sdLine 4 0).f ((sdLine 4 0).cand 1 9).x2 < (sdLine 4 0).f 1) := by
  rw [C174_decrease_iff (sdLine_quadratic 4 0) rfl 1 (by norm_num) (by norm_num)]
  have hg : (sdLine 4 0).g 1 = (1 : ℝ) := by norm_num [sdLine]
  rw [hg]
  norm_num [sdStep]

end Verif.TR
