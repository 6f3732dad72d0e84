import Verif.Props.TRQuad
import Verif.Props.TRLocal
import Verif.Props.InnerRate
import Mathlib.Analysis.SpecialFunctions.Log.Basic

/-!
# C178: how many iterations the trust-region Newton solver takes on a convex quadratic
-/

namespace Verif.TR

open scoped RealInnerProductSpace
open Verif.QN (IsSym IsSPD)

variable {V : Type} [NormedAddCommGroup V] [InnerProductSpace ℝ V]
variable {p : Prob V (fun _ => V)} {A : V →ₗ[ℝ] V} {b : V}

/-- The step from `old` to `new` reduced the gradient as a Newton step solved to the requested accuracy does. -/
def GoodStep (p : Prob V (fun _ => V)) (new old : V) : Prop :=
  ‖p.g new‖ ≤ p.kappa * ‖p.g old‖ ∧ ‖p.g new‖ ≤ ‖p.g old‖ ^ (1 + p.theta)

/-- Of the iterates (newest first), how many steps were not good. -/
noncomputable def badSteps (p : Prob V (fun _ => V)) : List V → Nat
  | new :: old :: l => (open scoped Classical in if GoodStep p new old then 0 else 1) + badSteps p (old :: l)
  | _ => 0

/-- What a step that was not cut off by the limit on the inner iterations achieves. -/
theorem pass_of {Mx : V → V →ₗ[ℝ] V} (q : IsQuadratic p A b) (I : Inner p Mx) {m : ℝ}
    (hlo : ∀ x v, m * ⟪v, Mx x v⟫ ≤ ⟪v, A v⟫) (x : V) (Delta : ℝ) (hcap : ∀ eta, tCG (p.local x Delta) p.maxInner ≠ some (eta, .maxIter))
    (hD : 0 < Delta) (hg : A x ≠ b) :
    GoodStep p (p.cand x Delta).x2 x ∨ m * (Delta * Delta) / 2 ≤ p.f x - p.f (p.cand x Delta).x2 := by
  have hg' : (p.local x Delta).g ≠ 0 := by
    show p.g x ≠ 0
    rw [q.g]; exact sub_ne_zero.mpr hg
  have hHe : (p.local x Delta).H = A := q.H x
  have hH : IsSym (p.local x Delta).H := by rw [hHe]; exact q.sym
  obtain ⟨⟨eta, st⟩, hres⟩ := C21_tcg_no_breakdown (L := p.local x Delta) hH (I.spd x) (I.inv x) hD hg' I.minInner I.kappa p.maxInner
  have hcase : (‖(p.local x Delta).g + (p.local x Delta).H eta‖ ≤ (p.local x Delta).kappa * ‖(p.local x Delta).g‖ ∧
      ‖(p.local x Delta).g + (p.local x Delta).H eta‖ ≤ ‖(p.local x Delta).g‖ ^ (1 + (p.local x Delta).theta)) ∨
        ⟪eta, Mx x eta⟫ = (p.local x Delta).Delta * (p.local x Delta).Delta := by
    have h1 : st ≠ .maxIter := fun h => hcap eta (h ▸ hres)
    have h2 := C21_tcg_step (L := p.local x Delta) hH (I.spd x) (I.inv x) hD hg' hres
    have hnm : st ≠ .min := tcg_not_min p.maxInner 0 (p.local x Delta).start eta st hres
    by_cases hc : st = .lCon ∨ st = .sCon
    · exact Or.inl (C21_converged_residual (L := p.local x Delta) hH (I.spd x) (I.inv x) hD hg' hres hc)
    · have hb : st = .negCurv ∨ st = .excRegion := by
        have := h2.2.2.2.2.1
        cases st <;> simp_all
      exact Or.inr (h2.2.2.2.2.2.1 hb)
  have hen := tcg_energy (L := p.local x Delta) hH (I.spd x) (I.inv x) p.maxInner 0 ⊥ (p.local x Delta).start (start_inv _ _ (I.inv x))
    (by simp only [Local.start]; exact mul_pos hD hD) hg' eta st hres
  have hc : (p.cand x Delta).x2 = x + eta := by
    unfold Prob.cand
    rw [hres]
    exact q.retr x eta
  rw [hc]
  rw [hHe] at hcase hen
  rcases hcase with ⟨h1, h2⟩ | h1
  · left
    have e : p.g (x + eta) = p.g x + A eta := by rw [q.g, q.g, map_add]; abel
    unfold GoodStep
    rw [e]
    exact ⟨h1, h2⟩
  · right
    have h3 : ⟪p.g x + A eta, eta⟫ ≤ 0 := hen
    rw [inner_add_left, real_inner_comm eta (p.g x), real_inner_comm eta (A eta)] at h3
    have h4 := q.change x eta
    have h5 := hlo x eta
    have h6 : ⟪eta, Mx x eta⟫ = Delta * Delta := h1
    rw [h6] at h5
    linarith

/-- With the limit at least the dimension no step is cut off. -/
theorem no_cut [FiniteDimensional ℝ V] {Mx : V → V →ₗ[ℝ] V} (q : IsQuadratic p A b) (I : Inner p Mx) (hdim : Module.finrank ℝ V ≤ p.maxInner) (x : V)
    (Delta : ℝ) (hg : A x ≠ b) (eta : V) : tCG (p.local x Delta) p.maxInner ≠ some (eta, .maxIter) := by
  have hg' : (p.local x Delta).g ≠ 0 := by
    show p.g x ≠ 0
    rw [q.g]; exact sub_ne_zero.mpr hg
  have hH : IsSym (p.local x Delta).H := by
    show IsSym (p.H x)
    rw [q.H]; exact q.sym
  exact (C167_passes (L := p.local x Delta) hH (I.spd x) (I.inv x) hg' I.minInner I.kappa p.maxInner hdim).2 eta

/-- **C178.** The trial point reduces the gradient as requested, or lowers the cost by a fixed amount. -/
theorem C178_pass [FiniteDimensional ℝ V] {Mx : V → V →ₗ[ℝ] V} (q : IsQuadratic p A b) (I : Inner p Mx) {m : ℝ}
    (hlo : ∀ x v, m * ⟪v, Mx x v⟫ ≤ ⟪v, A v⟫) (hdim : Module.finrank ℝ V ≤ p.maxInner) (x : V) (Delta : ℝ) (hD : 0 < Delta) (hg : A x ≠ b) :
    GoodStep p (p.cand x Delta).x2 x ∨ m * (Delta * Delta) / 2 ≤ p.f x - p.f (p.cand x Delta).x2 :=
  pass_of q I hlo x Delta (no_cut q I hdim x Delta hg) hD hg

/-- The steps that are not good, as long as the iterates have a property that excludes the solution and a cut. -/
theorem bad_steps_of {Mx : V → V →ₗ[ℝ] V} (q : IsQuadratic p A b) (I : Inner p Mx) {m : ℝ} (hm : 0 ≤ m)
    (hlo : ∀ x v, m * ⟪v, Mx x v⟫ ≤ ⟪v, A v⟫) {Q : V → Prop} (hQ : ∀ x, Q x → A x ≠ b)
    (hcap : ∀ x Delta, Q x → ∀ eta, tCG (p.local x Delta) p.maxInner ≠ some (eta, .maxIter)) (C : TRRun.Cfg ℝ)
    (hrho : C.acceptRho < 1) (hmag : 1 ≤ C.magnified) (h0 : 0 < C.initialDelta) (hmax : 0 < C.maximumDelta)
    {s : TRRun.St ℝ V} (h : TRRun.Reaches C p.env s) (hg : ∀ x ∈ s.xs.tail, Q x) :
    badSteps p s.xs * (m * (min C.initialDelta C.maximumDelta * min C.initialDelta C.maximumDelta) / 2) ≤ p.f p.x0 - p.f s.x1 := by
  induction h with
  | init => simp [TRRun.St.init, badSteps, Prob.env]
  | @step s s' hr _ hp ih =>
    obtain ⟨b1, -, b3, -, -⟩ := TRRun.reaches_basic hr
    obtain ⟨t, ht⟩ : ∃ t, s.xs = s.x1 :: t := by
      cases hx : s.xs with
      | nil => rw [hx] at b3; cases b3
      | cons a t => rw [hx] at b3; cases b3; exact ⟨t, rfl⟩
    have hsub : ∀ x ∈ s.xs, x ∈ s'.xs.tail := by
      intro x hx
      obtain ⟨D, -, ⟨-, hw⟩ | ⟨-, hw⟩⟩ := TRRun.pass_next hp
      · rw [(TRRun.writeHist_next hw).2.2.2.2.2.2.2.1]; exact hx
      · rw [(TRRun.writeHist_next hw).2.2.2.2.2.2.2.1]; exact hx
    have hgs : ∀ x ∈ s.xs.tail, Q x := fun x hx => hg x (hsub x (List.mem_of_mem_tail hx))
    have i1 := ih hgs
    have hq1 : Q s.x1 := hg _ (hsub _ (by rw [ht]; exact List.mem_cons_self))
    have hx1 : A s.x1 ≠ b := hQ _ hq1
    obtain ⟨-, i2, -⟩ := C168_never_rejects q I C hrho hmag h0 hmax hr (fun x hx => hQ x (hgs x hx))
    set Dm := min C.initialDelta C.maximumDelta with hDm
    have hDm0 : 0 < Dm := lt_min h0 hmax
    have hDpos : 0 < s.Delta := lt_of_lt_of_le hDm0 i2
    obtain ⟨-, c2, -⟩ := C168_ratio q I s.x1 s.Delta hDpos hx1
    obtain ⟨D', -, hpass⟩ := pass_quadratic q I C hrho hmag s b1 hDpos hx1
    rw [hpass] at hp
    have w := TRRun.writeHist_next hp
    have wx : s'.xs = (p.cand s.x1 s.Delta).x2 :: s.xs := w.2.2.2.2.2.2.2.1
    have wx1 : s'.x1 = (p.cand s.x1 s.Delta).x2 := by
      have b3' := (TRRun.reaches_basic (TRRun.Reaches.step hr ‹_› (hpass ▸ hp))).2.2.1
      rw [wx] at b3'
      simpa using b3'.symm
    rw [wx, wx1, ht, badSteps, ← ht]
    rcases pass_of q I hlo s.x1 s.Delta (hcap _ _ hq1) hDpos hx1 with hgood | hdec
    · rw [if_pos hgood]
      push_cast
      linarith
    · have hmono : m * (Dm * Dm) / 2 ≤ m * (s.Delta * s.Delta) / 2 := by
        have := mul_le_mul_of_nonneg_left (mul_self_le_mul_self hDm0.le i2) hm
        linarith
      have hnn : 0 ≤ m * (Dm * Dm) / 2 := by positivity
      split
      · push_cast; linarith
      · push_cast; nlinarith

/-- **C178.** Every iteration but a bounded number of them multiplies the gradient norm by `kappa` at most and raises it to the power `1 + theta`
at most. -/
theorem C178_bad_steps [FiniteDimensional ℝ V] {Mx : V → V →ₗ[ℝ] V} (q : IsQuadratic p A b) (I : Inner p Mx) {m : ℝ} (hm : 0 ≤ m)
    (hlo : ∀ x v, m * ⟪v, Mx x v⟫ ≤ ⟪v, A v⟫) (hdim : Module.finrank ℝ V ≤ p.maxInner) (C : TRRun.Cfg ℝ)
    (hrho : C.acceptRho < 1) (hmag : 1 ≤ C.magnified) (h0 : 0 < C.initialDelta) (hmax : 0 < C.maximumDelta)
    {s : TRRun.St ℝ V} (h : TRRun.Reaches C p.env s) (hg : ∀ x ∈ s.xs.tail, A x ≠ b) :
    badSteps p s.xs * (m * (min C.initialDelta C.maximumDelta * min C.initialDelta C.maximumDelta) / 2) ≤ p.f p.x0 - p.f s.x1 := by
  exact bad_steps_of q I hm hlo (Q := fun x => A x ≠ b) (fun _ h => h) (fun x Delta hx => no_cut q I hdim x Delta hx) C hrho hmag h0 hmax h hg

/-- The gradient on the set where the cost is not above a value. -/
theorem gradient_bound (q : IsQuadratic p A b) (hpos : ∀ v, 0 ≤ ⟪v, A v⟫) {K : ℝ} (hhi : ∀ v, ⟪v, A v⟫ ≤ K * ‖v‖ ^ 2) {w : V} (hw : A w = b) (x : V) :
    ‖p.g x‖ ^ 2 ≤ 2 * K * (p.f x - p.f w) := by
  set v := x - w with hv
  have hx : x = w + v := by rw [hv]; abel
  have hgx : p.g x = A v := by rw [q.g, hx, map_add, hw]; abel
  have hfx : p.f x - p.f w = 1 / 2 * ⟪v, A v⟫ := by
    rw [hx, q.change w v, q.g, hw, sub_self, inner_zero_right, zero_add]
  rw [hgx, hfx]
  -- Cauchy and Schwarz for the form of `A`
  have hcs : ⟪A v, A v⟫ * ⟪A v, A v⟫ ≤ ⟪v, A v⟫ * ⟪A v, A (A v)⟫ := by
    have key : ∀ t : ℝ, 0 ≤ ⟪A v, A (A v)⟫ * (t * t) + 2 * ⟪A v, A v⟫ * t + ⟪v, A v⟫ := by
      intro t
      have h1 := hpos (v + t • A v)
      have h2 : ⟪v, A (A v)⟫ = ⟪A v, A v⟫ := (q.sym v (A v)).symm
      simp only [map_add, map_smul, inner_add_left, inner_add_right, inner_smul_left, inner_smul_right, conj_trivial, h2] at h1
      linarith
    have := discrim_le_zero key
    unfold discrim at this
    nlinarith
  rw [← real_inner_self_eq_norm_sq]
  have h3 := hhi (A v)
  rw [← real_inner_self_eq_norm_sq] at h3
  have hn : 0 ≤ ⟪A v, A v⟫ := real_inner_self_nonneg
  have hv0 := hpos v
  rcases hn.lt_or_eq with hpos' | hz
  · have : ⟪A v, A v⟫ * ⟪A v, A v⟫ ≤ (K * ⟪v, A v⟫) * ⟪A v, A v⟫ := by nlinarith
    have := le_of_mul_le_mul_right this hpos'
    linarith
  · have h4 := hhi v
    have hz' : A v = 0 := inner_self_eq_zero.mp hz.symm
    rw [← hz, hz', inner_zero_right]
    simp

/-- The number of iterations when no step is cut off. -/
theorem iterations_of {Mx : V → V →ₗ[ℝ] V} (q : IsQuadratic p A b) (I : Inner p Mx) {m K : ℝ} (hm : 0 < m)
    (hpos : ∀ v, 0 ≤ ⟪v, A v⟫) (hlo : ∀ x v, m * ⟪v, Mx x v⟫ ≤ ⟪v, A v⟫) (hK : 0 < K) (hhi : ∀ v, ⟪v, A v⟫ ≤ K * ‖v‖ ^ 2)
    (hk0 : 0 < p.kappa) (hk1 : p.kappa < 1) {w : V} (hw : A w = b) (C : TRRun.Cfg ℝ)
    (hrho : C.acceptRho < 1) (hmag : 1 ≤ C.magnified) (h0 : 0 < C.initialDelta) (hmax : 0 < C.maximumDelta) {eps : ℝ} (heps : 0 < eps)
    (hcap : ∀ x Delta, eps < ‖p.g x‖ → ∀ eta, tCG (p.local x Delta) p.maxInner ≠ some (eta, .maxIter))
    (hx0 : eps < ‖p.g p.x0‖) {s : TRRun.St ℝ V} (h : TRRun.Reaches C p.env s) (hg : ∀ x ∈ s.xs.tail, eps < ‖p.g x‖) :
    (s.xs.tail.length : ℝ) ≤
      ((p.f p.x0 - p.f w) / (m * (min C.initialDelta C.maximumDelta * min C.initialDelta C.maximumDelta) / 2) + 1) *
        (Real.log (√(2 * K * (p.f p.x0 - p.f w)) / eps) / Real.log (1 / p.kappa) + 1) := by
  have hne : ∀ x, eps < ‖p.g x‖ → A x ≠ b := by
    intro x hx h1
    rw [q.g, h1, sub_self, norm_zero] at hx
    linarith
  set Dm := min C.initialDelta C.maximumDelta with hDm
  have hDm0 : 0 < Dm := lt_min h0 hmax
  set G := √(2 * K * (p.f p.x0 - p.f w)) with hGdef
  set lk := Real.log (1 / p.kappa) with hlk
  have hlk0 : 0 < lk := Real.log_pos ((one_lt_div hk0).mpr hk1)
  set u := m * (Dm * Dm) / 2 with hu
  have hu0 : 0 < u := by positivity
  have hfw : ∀ x, p.f w ≤ p.f x := by
    intro x
    have := q.change w (x - w)
    rw [q.g, hw, sub_self, inner_zero_right, add_sub_cancel] at this
    linarith [hpos (x - w)]
  -- the cost does not rise, so the gradient stays below `G`
  have hG : ∀ {s : TRRun.St ℝ V}, TRRun.Reaches C p.env s → (∀ x ∈ s.xs.tail, eps < ‖p.g x‖) → ‖p.g s.x1‖ ≤ G := by
    intro s hs hgs
    have h1 := bad_steps_of q I hm.le hlo hne hcap C hrho hmag h0 hmax hs hgs
    rw [← hDm, ← hu] at h1
    have h2 : (0 : ℝ) ≤ badSteps p s.xs * u := by positivity
    refine Real.le_sqrt_of_sq_le ((gradient_bound q hpos hhi hw s.x1).trans ?_)
    exact mul_le_mul_of_nonneg_left (by linarith) (by linarith)
  have key : ∀ {s : TRRun.St ℝ V}, TRRun.Reaches C p.env s → (∀ x ∈ s.xs, eps < ‖p.g x‖) →
      (s.xs.tail.length : ℝ) ≤ badSteps p s.xs * (Real.log (G / eps) / lk + 1) + Real.log (G / ‖p.g s.x1‖) / lk := by
    intro s hs
    induction hs with
    | init =>
      intro hx
      have hb := hG TRRun.Reaches.init (by simp [TRRun.St.init])
      have hgp : 0 < ‖p.g (TRRun.St.init C p.env).x1‖ := heps.trans (hx _ (by simp [TRRun.St.init]))
      have : 0 ≤ Real.log (G / ‖p.g (TRRun.St.init C p.env).x1‖) / lk :=
        div_nonneg (Real.log_nonneg ((one_le_div hgp).mpr hb)) hlk0.le
      have e1 : (TRRun.St.init C p.env).xs.tail.length = 0 := by simp [TRRun.St.init]
      have e2 : badSteps p (TRRun.St.init C p.env).xs = 0 := by simp [TRRun.St.init, badSteps]
      rw [e1, e2]
      simpa using this
    | @step s s' hr hst hp ih =>
      intro hx
      have hr' : TRRun.Reaches C p.env s' := TRRun.Reaches.step hr hst hp
      obtain ⟨b1, -, b3, -, -⟩ := TRRun.reaches_basic hr
      obtain ⟨t, ht⟩ : ∃ t, s.xs = s.x1 :: t := by
        cases hx : s.xs with
        | nil => rw [hx] at b3; cases b3
        | cons a t => rw [hx] at b3; cases b3; exact ⟨t, rfl⟩
      have hsub : ∀ x ∈ s.xs, x ∈ s'.xs.tail := by
        intro x hx
        obtain ⟨D, -, ⟨-, hw⟩ | ⟨-, hw⟩⟩ := TRRun.pass_next hp
        · rw [(TRRun.writeHist_next hw).2.2.2.2.2.2.2.1]; exact hx
        · rw [(TRRun.writeHist_next hw).2.2.2.2.2.2.2.1]; exact hx
      have hxs : ∀ x ∈ s.xs, eps < ‖p.g x‖ := fun x hxm => hx x (List.mem_of_mem_tail (hsub x hxm))
      have i1 := ih hxs
      have hgs : ∀ x ∈ s.xs.tail, eps < ‖p.g x‖ := fun x hxm => hxs x (List.mem_of_mem_tail hxm)
      have hx1 : eps < ‖p.g s.x1‖ := hxs _ (by rw [ht]; exact List.mem_cons_self)
      obtain ⟨-, i2, -⟩ := C168_never_rejects q I C hrho hmag h0 hmax hr (fun x hx => hne x (hgs x hx))
      have hDpos : 0 < s.Delta := lt_of_lt_of_le hDm0 i2
      obtain ⟨D', -, hpass⟩ := pass_quadratic q I C hrho hmag s b1 hDpos (hne _ hx1)
      rw [hpass] at hp
      have wx : s'.xs = (p.cand s.x1 s.Delta).x2 :: s.xs := (TRRun.writeHist_next hp).2.2.2.2.2.2.2.1
      have wx1 : s'.x1 = (p.cand s.x1 s.Delta).x2 := by
        have b3' := (TRRun.reaches_basic hr').2.2.1
        rw [wx] at b3'
        simpa using b3'.symm
      have hx2 : eps < ‖p.g s'.x1‖ := hx _ (by rw [wx, wx1]; exact List.mem_cons_self)
      have hgp1 : 0 < ‖p.g s.x1‖ := heps.trans hx1
      have hgp2 : 0 < ‖p.g s'.x1‖ := heps.trans hx2
      have hGs := hG hr hgs
      have hGs' := hG hr' (fun x hxm => hx x (List.mem_of_mem_tail hxm))
      have hG0 : 0 < G := hgp1.trans_le hGs
      have hlen : (s'.xs.tail.length : ℝ) = s.xs.tail.length + 1 := by
        rw [wx, ht]; simp
      have hbad : badSteps p s'.xs = (open scoped Classical in if GoodStep p s'.x1 s.x1 then 0 else 1) + badSteps p s.xs := by
        rw [wx, wx1, ht, badSteps]
      rw [hlen, hbad]
      by_cases hgood : GoodStep p s'.x1 s.x1
      · rw [if_pos hgood]
        have h1 : Real.log (G / ‖p.g s.x1‖) + lk ≤ Real.log (G / ‖p.g s'.x1‖) := by
          rw [hlk, ← Real.log_mul (by positivity) (by positivity)]
          refine Real.log_le_log (by positivity) ?_
          rw [div_mul_div_comm, mul_one, div_le_div_iff_of_pos_left hG0 (by positivity) hgp2, mul_comm]
          exact hgood.1
        have h2 : Real.log (G / ‖p.g s.x1‖) / lk + 1 ≤ Real.log (G / ‖p.g s'.x1‖) / lk := by
          rw [div_add_one hlk0.ne']
          exact div_le_div_of_nonneg_right h1 hlk0.le
        push_cast
        rw [zero_add]
        linarith
      · rw [if_neg hgood]
        have h1 : Real.log (G / ‖p.g s.x1‖) / lk ≤ Real.log (G / eps) / lk :=
          div_le_div_of_nonneg_right (Real.log_le_log (by positivity) (div_le_div_of_nonneg_left hG0.le heps hx1.le)) hlk0.le
        have h2 : 0 ≤ Real.log (G / ‖p.g s'.x1‖) / lk := div_nonneg (Real.log_nonneg ((one_le_div hgp2).mpr hGs')) hlk0.le
        push_cast
        rw [add_mul, one_mul]
        linarith
  -- one more iteration may reach `eps`
  have hB : ∀ {s : TRRun.St ℝ V}, TRRun.Reaches C p.env s → (∀ x ∈ s.xs.tail, eps < ‖p.g x‖) →
      (badSteps p s.xs : ℝ) ≤ (p.f p.x0 - p.f w) / u := by
    intro s hs hgs
    rw [le_div_iff₀ hu0]
    have := bad_steps_of q I hm.le hlo hne hcap C hrho hmag h0 hmax hs hgs
    rw [← hDm, ← hu] at this
    linarith [hfw s.x1]
  have hG0 : eps ≤ G := hx0.le.trans (hG (TRRun.Reaches.init (C := C) (E := p.env)) (by simp [TRRun.St.init]))
  have hL : 0 ≤ Real.log (G / eps) / lk := div_nonneg (Real.log_nonneg ((one_le_div heps).mpr hG0)) hlk0.le
  cases h with
  | init =>
    have e1 : (TRRun.St.init C p.env).xs.tail.length = 0 := by simp [TRRun.St.init]
    have hf0 : 0 ≤ (p.f p.x0 - p.f w) / u := div_nonneg (by linarith [hfw p.x0]) hu0.le
    rw [e1]
    push_cast
    positivity
  | @step s1 _ hr hst hp =>
    have hxs' : s.xs.tail = s1.xs := by
      obtain ⟨D, -, ⟨-, hw⟩ | ⟨-, hw⟩⟩ := TRRun.pass_next hp
      · rw [(TRRun.writeHist_next hw).2.2.2.2.2.2.2.1]; rfl
      · rw [(TRRun.writeHist_next hw).2.2.2.2.2.2.2.1]; rfl
    rw [hxs'] at hg
    obtain ⟨-, -, b3, -, -⟩ := TRRun.reaches_basic hr
    obtain ⟨t, ht⟩ : ∃ t, s1.xs = s1.x1 :: t := by
      cases hx : s1.xs with
      | nil => rw [hx] at b3; cases b3
      | cons a t => rw [hx] at b3; cases b3; exact ⟨t, rfl⟩
    have hx1 : eps < ‖p.g s1.x1‖ := hg _ (by rw [ht]; exact List.mem_cons_self)
    have k1 := key hr hg
    have k2 := hB hr (fun x hx => hg x (List.mem_of_mem_tail hx))
    have k3 : Real.log (G / ‖p.g s1.x1‖) / lk ≤ Real.log (G / eps) / lk := by
      have hGp : 0 < G := heps.trans_le hG0
      exact div_le_div_of_nonneg_right (Real.log_le_log (div_pos hGp (heps.trans hx1)) (div_le_div_of_nonneg_left hGp.le heps hx1.le)) hlk0.le
    have hlen : (s1.xs.length : ℝ) = s1.xs.tail.length + 1 := by rw [ht]; simp
    rw [hxs', hlen]
    have k4 := mul_le_mul_of_nonneg_right k2 (by linarith : 0 ≤ Real.log (G / eps) / lk + 1)
    rw [add_mul, one_mul]
    linarith

/-- **C178.** The number of iterations until the gradient norm is at most `eps`: at most `(B + 1) (L + 1)`, where `B` bounds the steps that end on the boundary
of the region and `L` the iterations the factor `kappa` takes from the largest possible gradient to `eps`. -/
theorem C178_iterations [FiniteDimensional ℝ V] {Mx : V → V →ₗ[ℝ] V} (q : IsQuadratic p A b) (I : Inner p Mx) {m K : ℝ} (hm : 0 < m)
    (hpos : ∀ v, 0 ≤ ⟪v, A v⟫) (hlo : ∀ x v, m * ⟪v, Mx x v⟫ ≤ ⟪v, A v⟫) (hK : 0 < K) (hhi : ∀ v, ⟪v, A v⟫ ≤ K * ‖v‖ ^ 2)
    (hdim : Module.finrank ℝ V ≤ p.maxInner) (hk0 : 0 < p.kappa) (hk1 : p.kappa < 1) {w : V} (hw : A w = b) (C : TRRun.Cfg ℝ)
    (hrho : C.acceptRho < 1) (hmag : 1 ≤ C.magnified) (h0 : 0 < C.initialDelta) (hmax : 0 < C.maximumDelta) {eps : ℝ} (heps : 0 < eps)
    (hx0 : eps < ‖p.g p.x0‖) {s : TRRun.St ℝ V} (h : TRRun.Reaches C p.env s) (hg : ∀ x ∈ s.xs.tail, eps < ‖p.g x‖) :
    (s.xs.tail.length : ℝ) ≤
      ((p.f p.x0 - p.f w) / (m * (min C.initialDelta C.maximumDelta * min C.initialDelta C.maximumDelta) / 2) + 1) *
        (Real.log (√(2 * K * (p.f p.x0 - p.f w)) / eps) / Real.log (1 / p.kappa) + 1) := by
  refine iterations_of q I hm hpos hlo hK hhi hk0 hk1 hw C hrho hmag h0 hmax heps (fun x Delta hx => no_cut q I hdim x Delta fun h1 => ?_) hx0 h hg
  rw [q.g, h1, sub_self, norm_zero] at hx
  linarith

/-- **C178.** Without preconditioner a limit `N` on the inner iterations that depends on the condition number and on `eps` only has the same effect as the dimension: so that
`N` times the number of iterations bounds the number of Hessian actions, in every dimension. -/
theorem C178_hessian_actions [FiniteDimensional ℝ V] (q : IsQuadratic p A b) (I : Inner p fun _ => LinearMap.id) (hP : ∀ x v, p.P x v = v) {m K : ℝ} (hm : 0 < m)
    (hmK : m < K) (hlo : ∀ v, m * ‖v‖ ^ 2 ≤ ⟪v, A v⟫) (hhi : ∀ v, ⟪v, A v⟫ ≤ K * ‖v‖ ^ 2)
    (hk0 : 0 < p.kappa) (hk1 : p.kappa < 1) (hth : 0 ≤ p.theta) {w : V} (hw : A w = b) (C : TRRun.Cfg ℝ)
    (hrho : C.acceptRho < 1) (hmag : 1 ≤ C.magnified) (h0 : 0 < C.initialDelta) (hmax : 0 < C.maximumDelta) {eps : ℝ} (heps : 0 < eps)
    (N : Nat) (hN0 : 1 ≤ N) (hN : (√(K / m) + 1) / 2 * Real.log (2 * √(K / m) / min p.kappa (eps ^ p.theta)) ≤ N) (hcap : N ≤ p.maxInner)
    (hx0 : eps < ‖p.g p.x0‖) {s : TRRun.St ℝ V} (h : TRRun.Reaches C p.env s) (hg : ∀ x ∈ s.xs.tail, eps < ‖p.g x‖) :
    (∀ x ∈ s.xs.tail, ∀ Delta, tCG (p.local x Delta) p.maxInner = tCG (p.local x Delta) N) ∧
    (s.xs.tail.length : ℝ) ≤
      ((p.f p.x0 - p.f w) / (m * (min C.initialDelta C.maximumDelta * min C.initialDelta C.maximumDelta) / 2) + 1) *
        (Real.log (√(2 * K * (p.f p.x0 - p.f w)) / eps) / Real.log (1 / p.kappa) + 1) := by
  have hpos : ∀ v, 0 ≤ ⟪v, A v⟫ := fun v => le_trans (by positivity) (hlo v)
  have hA : Verif.QuadCG.SPD A := ⟨q.sym, fun v hv => lt_of_lt_of_le (by have := norm_pos_iff.mpr hv; positivity) (hlo v)⟩
  have key : ∀ x Delta, eps < ‖p.g x‖ → tCG (p.local x Delta) p.maxInner = tCG (p.local x Delta) N ∧
      ∀ eta, tCG (p.local x Delta) p.maxInner ≠ some (eta, .maxIter) := by
    intro x Delta hx
    have hHe : (p.local x Delta).H = A := q.H x
    refine C177_trust_region (L := p.local x Delta) (hP x) (hHe ▸ hA) (w := w - x) ?_ hm hmK (by rw [hHe]; exact hlo) (by rw [hHe]; exact hhi)
      I.minInner (lt_min hk0 (Real.rpow_pos_of_pos heps _)) ?_ (min_le_left _ _) N hN0 hN p.maxInner hcap
    · rw [hHe]
      show p.g x + A (w - x) = 0
      rw [q.g, map_sub, hw]; abel
    · exact (min_le_right _ _).trans (Real.rpow_le_rpow heps.le hx.le hth)
  refine ⟨fun x hx Delta => (key x Delta (hg x hx)).1, ?_⟩
  refine iterations_of q I hm hpos (fun _ v => ?_) (hm.trans hmK) hhi hk0 hk1 hw C hrho hmag h0 hmax heps (fun x Delta hx => (key x Delta hx).2) hx0 h hg
  rw [LinearMap.id_apply, real_inner_self_eq_norm_sq]
  exact hlo v

/-- The cost `x^2 - 3 x` from one, requested accuracy one tenth, radius at least one: every iteration reduces the gradient tenfold. -/
example (C : TRRun.Cfg ℝ) (hrho : C.acceptRho < 1) (hmag : 1 ≤ C.magnified) (h0 : C.initialDelta = 1) (hmax : C.maximumDelta = 10)
    {s : TRRun.St ℝ ℝ} (h : TRRun.Reaches C (quadLine 2 (1 / 10)).env s) (hg : ∀ x ∈ s.xs.tail, ((2 : ℝ) • (LinearMap.id : ℝ →ₗ[ℝ] ℝ)) x ≠ 3) :
    badSteps (quadLine 2 (1 / 10)) s.xs = 0 := by
  have h1 := C178_bad_steps (quadLine_quadratic 2 (1 / 10)) (quadLine_inner 2 (by norm_num)) (m := 2) (by norm_num)
    (fun x v => by simp; nlinarith) (by simp [quadLine]) C hrho hmag (by rw [h0]; norm_num) (by rw [hmax]; norm_num) h hg
  rw [h0, hmax] at h1
  have h2 : (quadLine 2 (1 / 10)).f (quadLine 2 (1 / 10)).x0 = -2 := by norm_num [quadLine]
  have h3 : -(9 / 4) ≤ (quadLine 2 (1 / 10)).f s.x1 := by
    show _ ≤ s.x1 * (2 * s.x1) / 2 - 3 * s.x1
    nlinarith [sq_nonneg (s.x1 - 3 / 2)]
  rw [h2] at h1
  norm_num at h1
  have h4 : (badSteps (quadLine 2 (1 / 10)) s.xs : ℝ) < 1 := by linarith
  exact_mod_cast Nat.lt_one_iff.mp (by exact_mod_cast h4)

/-- The number of iterations for that cost. -/
example (C : TRRun.Cfg ℝ) (hrho : C.acceptRho < 1) (hmag : 1 ≤ C.magnified) (h0 : C.initialDelta = 1) (hmax : C.maximumDelta = 10)
    {s : TRRun.St ℝ ℝ} (h : TRRun.Reaches C (quadLine 2 (1 / 10)).env s)
    (hg : ∀ x ∈ s.xs.tail, 1 / 1000 < ‖(quadLine 2 (1 / 10)).g x‖) : s.xs.tail.length ≤ 5 := by
  have h1 := C178_iterations (quadLine_quadratic 2 (1 / 10)) (quadLine_inner 2 (by norm_num)) (m := 2) (K := 2) (by norm_num)
    (fun v => by simp; nlinarith [mul_self_nonneg v]) (fun x v => by simp; nlinarith) (by norm_num) (fun v => by simp; nlinarith [mul_self_nonneg v])
    (by simp [quadLine]) (by norm_num [quadLine]) (by norm_num [quadLine]) (w := 3 / 2) (by norm_num) C hrho hmag (by rw [h0]; norm_num)
    (by rw [hmax]; norm_num) (eps := 1 / 1000) (by norm_num) (by norm_num [quadLine]) h hg
  have e1 : (quadLine 2 (1 / 10)).f (quadLine 2 (1 / 10)).x0 - (quadLine 2 (1 / 10)).f (3 / 2) = 1 / 4 := by norm_num [quadLine]
  have e2 : (1 : ℝ) / (quadLine 2 (1 / 10)).kappa = 10 := by norm_num [quadLine]
  have e3 : Real.log ((1 : ℝ) / (1 / 1000)) = 3 * Real.log 10 := by
    rw [show (1 : ℝ) / (1 / 1000) = 10 ^ 3 by norm_num, Real.log_pow]; norm_num
  have hl : 0 < Real.log 10 := Real.log_pos (by norm_num)
  rw [e1, e2, h0, hmax, show (2 : ℝ) * 2 * (1 / 4) = 1 by norm_num, Real.sqrt_one, e3, mul_div_cancel_right₀ _ hl.ne'] at h1
  norm_num at h1
  have : (s.xs.tail.length : ℝ) ≤ 5 := by simpa using h1
  exact_mod_cast this

/-- Requested accuracy one half: four inner iterations are enough as long as the gradient is above one half, and there are at most three such iterations. -/
example (C : TRRun.Cfg ℝ) (hrho : C.acceptRho < 1) (hmag : 1 ≤ C.magnified) (h0 : C.initialDelta = 1) (hmax : C.maximumDelta = 10)
    {s : TRRun.St ℝ ℝ} (h : TRRun.Reaches C (quadLine 2 (1 / 2)).env s)
    (hg : ∀ x ∈ s.xs.tail, 1 / 2 < ‖(quadLine 2 (1 / 2)).g x‖) :
    (∀ x ∈ s.xs.tail, ∀ Delta, tCG ((quadLine 2 (1 / 2)).local x Delta) 5 = tCG ((quadLine 2 (1 / 2)).local x Delta) 4) ∧ s.xs.tail.length ≤ 3 := by
  have hl : 0 < Real.log 2 := Real.log_pos (by norm_num)
  have hl2 := Real.log_two_lt_d9
  have hs : √((4 : ℝ) / 1) = 2 := by rw [show (4 : ℝ) / 1 = 2 ^ 2 by norm_num]; exact Real.sqrt_sq (by norm_num)
  obtain ⟨h1, h2⟩ := C178_hessian_actions (quadLine_quadratic 2 (1 / 2)) (quadLine_inner 2 (by norm_num)) (fun _ _ => rfl) (m := 1) (K := 4) (by norm_num)
    (by norm_num) (fun v => by simp; nlinarith [mul_self_nonneg v]) (fun v => by simp; nlinarith [mul_self_nonneg v])
    (by norm_num [quadLine]) (by norm_num [quadLine]) (by norm_num [quadLine]) (w := 3 / 2) (by norm_num) C hrho hmag (by rw [h0]; norm_num)
    (by rw [hmax]; norm_num) (eps := 1 / 2) (by norm_num) 4 (by norm_num) (by
      have e : min (quadLine 2 (1 / 2)).kappa ((1 / 2 : ℝ) ^ (quadLine 2 (1 / 2)).theta) = 1 / 2 := by
        show min (1 / 2 : ℝ) ((1 / 2 : ℝ) ^ (1 : ℝ)) = 1 / 2
        rw [Real.rpow_one, min_self]
      rw [e, hs, show (2 : ℝ) * 2 / (1 / 2) = 2 ^ 3 by norm_num, Real.log_pow]
      push_cast
      linarith) (by simp [quadLine]) (by norm_num [quadLine]) h hg
  refine ⟨h1, ?_⟩
  have e1 : (quadLine 2 (1 / 2)).f (quadLine 2 (1 / 2)).x0 - (quadLine 2 (1 / 2)).f (3 / 2) = 1 / 4 := by norm_num [quadLine]
  have e2 : (1 : ℝ) / (quadLine 2 (1 / 2)).kappa = 2 := by norm_num [quadLine]
  have e3 : Real.log (√(2 * 4 * (1 / 4)) / (1 / 2)) = 3 / 2 * Real.log 2 := by
    rw [show (2 : ℝ) * 4 * (1 / 4) = 2 by norm_num, Real.log_div (by positivity) (by norm_num), Real.log_sqrt (by norm_num), one_div, Real.log_inv]
    ring
  rw [e1, e2, h0, hmax, e3, mul_div_cancel_right₀ _ hl.ne'] at h2
  norm_num at h2
  have h3 : (s.xs.tail.length : ℝ) < 4 := by
    have : (s.xs.tail.length : ℝ) ≤ 15 / 4 := by simpa using h2
    linarith
  have : s.xs.tail.length < 4 := by exact_mod_cast h3
  omega

end Verif.TR
