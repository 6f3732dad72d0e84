import Verif.Props.TRConverge
import Mathlib.LinearAlgebra.FiniteDimensional.Lemmas

/-!
# C120: fast local convergence of the trust-region Newton solver
-/

set_option linter.unusedSectionVars false
set_option linter.unusedVariables false

namespace Verif.TR

open scoped RealInnerProductSpace Classical
open Verif.QN (IsSym IsSPD)
open Verif.TRRun (Status)
open Module (finrank)

section inner
variable {E : Type*} [NormedAddCommGroup E] [InnerProductSpace ℝ E] {L : Local E} {M : E →ₗ[ℝ] E}

/-- The iterate of a state satisfying the invariant is orthogonal to its residual. -/
theorem CGInv.r_eta {K : Submodule ℝ E} {s : CG E} (h : CGInv L M K s) : ⟪s.r, s.eta⟫ = 0 := h.r_orth _ h.eta_mem

/-- Every result of the inner loop has a non-positive product with its residual. -/
theorem tcg_energy (hH : IsSym L.H) (hP : IsSPD L.P) (hM : Inverse L.P M) :
    ∀ (n j : Nat) (K : Submodule ℝ E) (s : CG E), CGInv L M K s → s.ePe < L.Delta * L.Delta → s.r ≠ 0 →
      ∀ eta st, tcg L n j s = some (eta, st) → ⟪L.g + L.H eta, eta⟫ ≤ 0 := by
  intro n
  induction n with
  | zero =>
    intro j K s h hin hr eta st hres
    simp only [tcg, Option.some.injEq, Prod.mk.injEq] at hres
    obtain ⟨rfl, rfl⟩ := hres
    rw [← h.r_eq, h.r_eta]
  | succ n ih =>
    intro j K s h hin hr eta st hres
    have hz := h.zr_pos hP hr
    have hdP := h.dPd_pos hM hP hr
    simp only [tcg] at hres
    set D := ⟪s.delta, L.H s.delta⟫ with hD
    set alpha := s.zr / D with halpha
    by_cases hexit : D ≤ 0 ∨ L.Delta * L.Delta ≤ ePeNew s alpha
    · rw [if_pos hexit] at hres
      obtain ⟨t, ht, htpos, hbd⟩ := tau_spec hdP hin
      have htp := htpos h.ePd_nonneg
      rw [ht] at hres
      simp only [Option.map_some, Option.some.injEq, Prod.mk.injEq] at hres
      obtain ⟨rfl, rfl⟩ := hres
      have htD : t * D ≤ s.zr := by
        by_cases hDpos : D ≤ 0
        · nlinarith
        · push Not at hDpos
          have hge : L.Delta * L.Delta ≤ ePeNew s alpha := hexit.resolve_left (not_le.mpr hDpos)
          have hapos : 0 < alpha := div_pos hz hDpos
          have : t ≤ alpha := by
            by_contra hc
            push Not at hc
            have := ePeNew_strict hdP h.ePd_nonneg hapos.le hc
            linarith
          calc t * D ≤ alpha * D := mul_le_mul_of_nonneg_right this hDpos.le
            _ = s.zr := div_mul_cancel₀ _ hDpos.ne'
      have e : L.g + L.H (s.eta + t • s.delta) = s.r + t • L.H s.delta := by
        rw [h.r_eq, map_add, map_smul, add_assoc]
      rw [e, inner_add_left, inner_add_right, inner_add_right, h.r_eta, real_inner_smul_left, real_inner_smul_left, real_inner_smul_right,
        real_inner_smul_right, h.r_delta, h.conj _ h.eta_mem, real_inner_comm, ← hD]
      nlinarith
    · rw [if_neg hexit] at hres
      push Not at hexit
      obtain ⟨hDpos, hinside⟩ := hexit
      have hinv := h.step hH hP hM hDpos hz (cgMove L s alpha).modelv
      simp only [← hD, ← halpha] at hinv
      have hself : ⟪L.g + L.H (cgMove L s alpha).eta, (cgMove L s alpha).eta⟫ ≤ 0 := by
        have e1 := hinv.r_eta
        have e2 := hinv.r_eq
        rw [e2] at e1
        exact e1.le
      split at hres
      · simp only [Option.some.injEq, Prod.mk.injEq] at hres
        obtain ⟨rfl, rfl⟩ := hres
        exact hself
      · split at hres
        · simp only [Option.some.injEq, Prod.mk.injEq] at hres
          obtain ⟨rfl, rfl⟩ := hres
          exact hself
        · rw [if_neg hz.ne'] at hres
          by_cases hr' : (cgMove L s alpha).r = 0
          · -- the next pass starts with a zero residual: the result is NaN or the iterate itself
            cases n with
            | zero =>
              simp only [tcg, Option.some.injEq, Prod.mk.injEq] at hres
              obtain ⟨rfl, rfl⟩ := hres
              exact hself
            | succ n =>
              have hd0 : (cgDir L (cgMove L s alpha) alpha (ePeNew s alpha)).delta = 0 := by
                show (⟪L.P (cgMove L s alpha).r, (cgMove L s alpha).r⟫ / s.zr) • s.delta - L.P (cgMove L s alpha).r = 0
                rw [hr']
                simp
              have hdP0 : (cgDir L (cgMove L s alpha) alpha (ePeNew s alpha)).dPd = 0 := by
                rw [hinv.dPd_eq, show _ = (cgDir L (cgMove L s alpha) alpha (ePeNew s alpha)).delta from rfl, hd0]
                simp
              simp only [tcg] at hres
              rw [if_pos (by left; rw [hd0]; simp)] at hres
              unfold tau at hres
              rw [if_pos (Or.inl hdP0)] at hres
              simp at hres
          · exact ih (j + 1) _ _ hinv hinside hr' eta st hres

/-- The loop is not left by its iteration cap when the cap is at least the dimension. -/
theorem tcg_not_maxIter [FiniteDimensional ℝ E] (hH : IsSym L.H) (hP : IsSPD L.P) (hM : Inverse L.P M) (hmin : L.minInner = 0) (htol : 0 ≤ L.tol) :
    ∀ (n j : Nat) (K : Submodule ℝ E) (s : CG E), CGInv L M K s → s.ePe < L.Delta * L.Delta → s.r ≠ 0 → finrank ℝ E ≤ finrank ℝ K + n →
      ∀ eta st, tcg L n j s = some (eta, st) → st ≠ .maxIter := by
  intro n
  induction n with
  | zero =>
    intro j K s h hin hr hdim eta st hres
    exfalso
    have htop : K = ⊤ := Submodule.eq_top_of_finrank_eq (le_antisymm (Submodule.finrank_le K) (by simpa using hdim))
    exact hr (inner_self_eq_zero.mp (h.r_orth s.r (by rw [htop]; trivial)) : s.r = 0)
  | succ n ih =>
    intro j K s h hin hr hdim eta st hres
    have hz := h.zr_pos hP hr
    simp only [tcg] at hres
    set D := ⟪s.delta, L.H s.delta⟫ with hD
    set alpha := s.zr / D with halpha
    by_cases hexit : D ≤ 0 ∨ L.Delta * L.Delta ≤ ePeNew s alpha
    · rw [if_pos hexit, Option.map_eq_some_iff] at hres
      obtain ⟨t, _, he⟩ := hres
      simp only [Prod.mk.injEq] at he
      rw [← he.2]
      split <;> simp
    · rw [if_neg hexit] at hres
      push Not at hexit
      obtain ⟨hDpos, hinside⟩ := hexit
      have hinv := h.step hH hP hM hDpos hz (cgMove L s alpha).modelv
      simp only [← hD, ← halpha] at hinv
      split at hres
      · simp only [Option.some.injEq, Prod.mk.injEq] at hres
        rw [← hres.2]; simp
      · split at hres
        · simp only [Option.some.injEq, Prod.mk.injEq] at hres
          rw [← hres.2]
          unfold Local.conv; split <;> simp
        · rename_i hconv
          rw [if_neg hz.ne'] at hres
          have hr' : (cgMove L s alpha).r ≠ 0 := by
            intro h0
            apply hconv
            exact ⟨by omega, by rw [h0, norm_zero]; exact htol⟩
          refine ih (j + 1) _ _ hinv hinside hr' ?_ eta st hres
          -- the dimension grows
          have hnot : s.delta ∉ K := by
            intro hmem
            have := h.conj _ hmem
            rw [real_inner_comm, ← hD] at this
            linarith
          have hlt : K < K ⊔ Submodule.span ℝ {s.delta} := by
            refine lt_of_le_of_ne le_sup_left fun he => hnot ?_
            rw [he]
            exact (le_sup_right : _ ≤ K ⊔ Submodule.span ℝ {s.delta}) (Submodule.mem_span_singleton_self _)
          have := Submodule.finrank_lt_finrank_of_lt hlt
          omega

/-- The status "minimum" does not occur. -/
theorem tcg_not_min : ∀ (n j : Nat) (s : CG E) (eta : E) (st : Status), tcg L n j s = some (eta, st) → st ≠ .min := by
  intro n
  induction n with
  | zero =>
    intro j s eta st hres
    simp only [tcg, Option.some.injEq, Prod.mk.injEq] at hres
    rw [← hres.2]; simp
  | succ n ih =>
    intro j s eta st hres
    simp only [tcg] at hres
    split at hres
    · rw [Option.map_eq_some_iff] at hres
      obtain ⟨t, _, he⟩ := hres
      simp only [Prod.mk.injEq] at he
      rw [← he.2]
      split <;> simp
    · split at hres
      · simp only [Option.some.injEq, Prod.mk.injEq] at hres
        rw [← hres.2]; simp
      · split at hres
        · simp only [Option.some.injEq, Prod.mk.injEq] at hres
          rw [← hres.2]
          unfold Local.conv; split <;> simp
        · split at hres
          · cases hres
          · exact ih _ _ _ _ hres

/-- **C120 (inner solver).** For every symmetric operator, symmetric positive definite preconditioner, radius and iteration cap, every step `eta` returned by the truncated conjugate gradient
solver satisfies `⟨g + H eta, eta⟩ ≤ 0`: the model still does not increase at `eta` in the direction of `eta`. -/
theorem C120_tcg_energy (hH : IsSym L.H) (hP : IsSPD L.P) (hM : Inverse L.P M) (hDelta : 0 < L.Delta) (hg : L.g ≠ 0)
    {maxInner : Nat} {eta : E} {st : Status} (h : tCG L maxInner = some (eta, st)) : ⟪L.g, eta⟫ + ⟪L.H eta, eta⟫ ≤ 0 := by
  rw [← inner_add_left]
  exact tcg_energy hH hP hM maxInner 0 ⊥ L.start (start_inv L M hM) (by simp only [Local.start]; positivity) hg eta st h

/-- **C120 (inner solver, finite termination).** When the cap on the inner iterations is at least the dimension, the inner solver is never left because of the cap: it meets its residual
test or ends on the boundary of the region. -/
theorem C120_tcg_finite [FiniteDimensional ℝ E] (hH : IsSym L.H) (hP : IsSPD L.P) (hM : Inverse L.P M) (hDelta : 0 < L.Delta) (hg : L.g ≠ 0)
    (hmin : L.minInner = 0) (hk : 0 ≤ L.kappa) {maxInner : Nat} (hdim : finrank ℝ E ≤ maxInner) :
    ∃ eta st, tCG L maxInner = some (eta, st) ∧
      ((‖L.g + L.H eta‖ ≤ L.kappa * ‖L.g‖ ∧ ‖L.g + L.H eta‖ ≤ ‖L.g‖ ^ (1 + L.theta) ∧ (st = .lCon ∨ st = .sCon)) ∨
        (⟪eta, M eta⟫ = L.Delta * L.Delta ∧ (st = .negCurv ∨ st = .excRegion))) := by
  obtain ⟨⟨eta, st⟩, hr⟩ := C21_tcg_no_breakdown hH hP hM hDelta hg hmin hk maxInner
  have htol : 0 ≤ L.tol := by
    unfold Local.tol
    simp only []
    apply mul_nonneg (norm_nonneg _)
    split
    · exact Real.rpow_nonneg (norm_nonneg _) _
    · exact hk
  have h1 := tcg_not_maxIter hH hP hM hmin htol maxInner 0 ⊥ L.start (start_inv L M hM) (by simp only [Local.start]; positivity) hg
    (by simpa using hdim) eta st hr
  have h2 := C21_tcg_step hH hP hM hDelta hg hr
  refine ⟨eta, st, hr, ?_⟩
  have hcases : st = .lCon ∨ st = .sCon ∨ st = .negCurv ∨ st = .excRegion ∨ st = .min := by
    have := h2.2.2.2.2.1
    cases st <;> simp_all
  have hnm : st ≠ .min := tcg_not_min maxInner 0 L.start eta st hr
  by_cases hc : st = .lCon ∨ st = .sCon
  · have := C21_converged_residual hH hP hM hDelta hg hr hc
    exact Or.inl ⟨this.1, this.2, hc⟩
  · have hb : st = .negCurv ∨ st = .excRegion := by tauto
    exact Or.inr ⟨h2.2.2.2.2.2.1 hb, hb⟩

end inner

/-! ## The run near a minimiser -/

section run
variable {X : Type} {T : X → Type} [∀ x, NormedAddCommGroup (T x)] [∀ x, InnerProductSpace ℝ (T x)]

/-- A basin `B` of a problem: the Hessian operators are at least `mu`, the inverse `M` of the preconditioner is at most `m`, gradients are at most `rho`, along the retraction
and for steps of length at most `‖g‖ / mu` the objective has a third order error `gam` and the gradient a second order error `beta`, and such steps stay in the basin when they decrease the objective. -/
structure Basin (p : Prob X T) (M : ∀ x, T x →ₗ[ℝ] T x) (B : X → Prop) (mu m gam beta rho : ℝ) : Prop where
  sym : ∀ x, B x → IsSym (p.H x)
  spd : ∀ x, B x → IsSPD (p.P x)
  inv : ∀ x, B x → Inverse (p.P x) (M x)
  convex : ∀ x, B x → ∀ v, mu * ‖v‖ ^ 2 ≤ ⟪v, p.H x v⟫
  prec : ∀ x, B x → ∀ v, ⟪v, M x v⟫ ≤ m * ‖v‖ ^ 2
  small : ∀ x, B x → ‖p.g x‖ ≤ rho
  taylor : ∀ x, B x → ∀ v, ‖v‖ ≤ ‖p.g x‖ / mu → |p.f (p.retr x v) - p.f x - (⟪v, p.g x⟫ + 1 / 2 * ⟪v, p.H x v⟫)| ≤ gam * ‖v‖ ^ 3
  grad : ∀ x, B x → ∀ v, ‖v‖ ≤ ‖p.g x‖ / mu → ‖p.g (p.retr x v)‖ ≤ ‖p.g x + p.H x v‖ + beta * ‖v‖ ^ 2
  stay : ∀ x, B x → ∀ v, ‖v‖ ≤ ‖p.g x‖ / mu → p.f (p.retr x v) < p.f x → B (p.retr x v)
  mupos : 0 < mu
  mpos : 0 < m
  gam0 : 0 ≤ gam
  beta0 : 0 ≤ beta
  fit : 8 * gam * rho < mu ^ 2

/-- The candidate at a point of the basin, for every radius and every cap on the inner iterations: it is finite, the ratio of actual to predicted decrease exceeds 3/4, and it lies in the basin. -/
theorem basin_cand {p : Prob X T} {M : ∀ x, T x →ₗ[ℝ] T x} {B : X → Prop} {mu m gam beta rho : ℝ} (S : Basin p M B mu m gam beta rho)
    (hmin : p.minInner = 0) (hk : 0 ≤ p.kappa) (hin : 0 < p.maxInner) {x : X} (hB : B x) {D : ℝ} (hD : 0 < D) (hg : p.g x ≠ 0) :
    ∃ eta st, tCG (p.local x D) p.maxInner = some (eta, st) ∧ p.cand x D = ⟨p.retr x eta, ⟪eta, p.g x + (1 / 2 : ℝ) • p.H x eta⟫, st, true, .nan⟩ ∧
      ‖eta‖ ≤ ‖p.g x‖ / mu ∧ ⟪eta, p.g x + (1 / 2 : ℝ) • p.H x eta⟫ < 0 ∧
      3 / 4 < (p.f x - p.f (p.retr x eta)) / -⟪eta, p.g x + (1 / 2 : ℝ) • p.H x eta⟫ ∧ p.f (p.retr x eta) < p.f x ∧ B (p.retr x eta) := by
  have hmu := S.mupos
  obtain ⟨⟨eta, st⟩, hr⟩ := C21_tcg_no_breakdown (L := p.local x D) (S.sym x hB) (S.spd x hB) (S.inv x hB) hD hg hmin hk p.maxInner
  have hstep := C21_tcg_step (L := p.local x D) (S.sym x hB) (S.spd x hB) (S.inv x hB) hD hg hr
  have hen : ⟪p.g x, eta⟫ + ⟪p.H x eta, eta⟫ ≤ 0 := C120_tcg_energy (L := p.local x D) (S.sym x hB) (S.spd x hB) (S.inv x hB) hD hg hr
  have hneg : ⟪eta, p.g x⟫ + 1 / 2 * ⟪eta, p.H x eta⟫ < 0 := hstep.2.2.1 hin
  have hne : eta ≠ 0 := by
    intro h0; rw [h0] at hneg; simp at hneg
  have hnp : 0 < ‖eta‖ := norm_pos_iff.mpr hne
  have hgp : 0 < ‖p.g x‖ := norm_pos_iff.mpr hg
  rw [real_inner_comm, real_inner_comm eta] at hen
  have hc := S.convex x hB eta
  have hlen : ‖eta‖ ≤ ‖p.g x‖ / mu := by
    rw [le_div_iff₀ hmu]
    have h1 : -(‖eta‖ * ‖p.g x‖) ≤ ⟪eta, p.g x⟫ := (abs_le.mp (abs_real_inner_le_norm eta (p.g x))).1
    have h2 : ‖eta‖ * (‖eta‖ * mu) ≤ ‖eta‖ * ‖p.g x‖ := by nlinarith
    exact le_of_mul_le_mul_left h2 hnp
  have hmv : ⟪eta, p.g x + (1 / 2 : ℝ) • p.H x eta⟫ = ⟪eta, p.g x⟫ + 1 / 2 * ⟪eta, p.H x eta⟫ := by
    rw [inner_add_right, inner_smul_right]
  have hlow : 1 / 2 * mu * ‖eta‖ ^ 2 ≤ -(⟪eta, p.g x⟫ + 1 / 2 * ⟪eta, p.H x eta⟫) := by nlinarith
  have ht := S.taylor x hB eta hlen
  have hfit : gam * ‖eta‖ ^ 3 < 1 / 4 * -(⟪eta, p.g x⟫ + 1 / 2 * ⟪eta, p.H x eta⟫) := by
    have h1 : ‖eta‖ * mu ≤ rho := by
      rw [le_div_iff₀ hmu] at hlen
      exact hlen.trans (S.small x hB)
    have h2 : 8 * gam * ‖eta‖ < mu := by
      have : 8 * gam * (‖eta‖ * mu) ≤ 8 * gam * rho := mul_le_mul_of_nonneg_left h1 (by have := S.gam0; linarith)
      have h3 := S.fit
      by_contra hcon
      push Not at hcon
      nlinarith
    have h4 : 0 < ‖eta‖ ^ 2 := by positivity
    nlinarith
  have hdec : 3 / 4 * -(⟪eta, p.g x⟫ + 1 / 2 * ⟪eta, p.H x eta⟫) < p.f x - p.f (p.retr x eta) := by
    have := (abs_le.mp ht).2
    linarith
  have hf : p.f (p.retr x eta) < p.f x := by linarith
  refine ⟨eta, st, hr, ?_, hlen, by rw [hmv]; exact hneg, ?_, hf, S.stay x hB eta hlen hf⟩
  · unfold Prob.cand; rw [hr]
  · rw [hmv, lt_div_iff₀ (by linarith)]
    exact hdec

/-- **C120 (one pass).** At a point of the basin with a nonzero gradient, whatever the radius: the candidate is accepted, the objective decreases, the new iterate is in the basin, and either the inner solver met its
residual test, the radius is unchanged (up to its maximum) and the gradient norm falls superlinearly, or the radius was at most `sqrt m * ‖g‖ / mu` and is magnified (up to its maximum). -/
theorem C120_pass [∀ x, FiniteDimensional ℝ (T x)] {p : Prob X T} {M : ∀ x, T x →ₗ[ℝ] T x} {B : X → Prop} {mu m gam beta rho : ℝ} (S : Basin p M B mu m gam beta rho)
    (hmin : p.minInner = 0) (hk : 0 ≤ p.kappa) (hin : 0 < p.maxInner) (hdim : ∀ x, finrank ℝ (T x) ≤ p.maxInner)
    (C : TRRun.Cfg ℝ) (hrho : C.acceptRho ≤ 3 / 4) (hmm : C.minIter ≤ C.maxIter) (hgap : C.outputGap ≠ 0)
    {s : TRRun.St ℝ X} (hr : TRRun.Reaches C p.env s) (hc : s.continues C = true) (hB : B s.x1) (hD : 0 < s.Delta) (hg : p.g s.x1 ≠ 0) :
    ∃ s', TRRun.pass C p.env s = .next s' ∧ s'.iter = s.iter + 1 ∧ B s'.x1 ∧ p.f s'.x1 < p.f s.x1 ∧ s'.isstop = p.stopped s.iter s.x1 s'.x1 ∧
      ((‖p.g s'.x1‖ ≤ p.kappa * ‖p.g s.x1‖ + beta / mu ^ 2 * ‖p.g s.x1‖ ^ 2 ∧
          ‖p.g s'.x1‖ ≤ ‖p.g s.x1‖ ^ (1 + p.theta) + beta / mu ^ 2 * ‖p.g s.x1‖ ^ 2 ∧ s'.Delta = min s.Delta C.maximumDelta) ∨
        (s.Delta ^ 2 ≤ m * (‖p.g s.x1‖ / mu) ^ 2 ∧ s'.Delta = min (s.Delta * C.magnified) C.maximumDelta)) := by
  obtain ⟨eta, st, ht, hcand, hlen, hneg, hratio, hf, hB'⟩ := basin_cand S hmin hk hin hB hD hg
  obtain ⟨hf1, hn1, _⟩ := TRRun.reaches_basic hr
  have hmu := S.mupos
  have hcand' : p.env.cand s.iter s.x1 s.Delta = ⟨p.retr s.x1 eta, ⟪eta, p.g s.x1 + (1 / 2 : ℝ) • p.H s.x1 eta⟫, st, true, .nan⟩ := hcand
  have hrat : TRRun.ratio s.f1 (p.env.f (p.retr s.x1 eta)) (⟨p.retr s.x1 eta, ⟪eta, p.g s.x1 + (1 / 2 : ℝ) • p.H s.x1 eta⟫, st, true, .nan⟩ : TRRun.Cand ℝ X) =
      .num ((p.f s.x1 - p.f (p.retr s.x1 eta)) / -⟪eta, p.g s.x1 + (1 / 2 : ℝ) • p.H s.x1 eta⟫) := by
    unfold TRRun.ratio
    rw [if_neg hneg.ne, hf1]
    rfl
  set v := (p.f s.x1 - p.f (p.retr s.x1 eta)) / -⟪eta, p.g s.x1 + (1 / 2 : ℝ) • p.H s.x1 eta⟫ with hv
  have hclamp : ∀ D : ℝ, (if C.maximumDelta < D then C.maximumDelta else D) = min D C.maximumDelta := by
    intro D
    split
    · rename_i h; rw [min_eq_right h.le]
    · rename_i h; rw [min_eq_left (not_lt.mp h)]
  have hrad : TRRun.radius C (.num v) st (TRRun.accurate C (p.env.ngf p.env.x0) s.ngf1) s.Delta =
      some (min (if st = .excRegion ∨ st = .negCurv ∨ st = .maxIter then s.Delta * C.magnified else s.Delta) C.maximumDelta) := by
    unfold TRRun.radius
    rw [if_pos (by simp [TRRun.Ratio.gt, hratio])]
    simp only [hclamp]
  have hacc : TRRun.accepts C (.num v) st (TRRun.accurate C (p.env.ngf p.env.x0) s.ngf1) s.f1 (p.env.f (p.retr s.x1 eta)) = true := by
    unfold TRRun.accepts
    have : (TRRun.Ratio.num v).gt C.acceptRho = true := by simp only [TRRun.Ratio.gt, decide_eq_true_eq]; linarith
    rw [this]; rfl
  have hpass : TRRun.pass C p.env s = (s.accept p.env (p.retr s.x1 eta)
      (min (if st = .excRegion ∨ st = .negCurv ∨ st = .maxIter then s.Delta * C.magnified else s.Delta) C.maximumDelta)).writeHist C := by
    unfold TRRun.pass
    simp only [hcand', hrat, hrad, hacc, Bool.not_true, Bool.false_eq_true, if_false, if_true]
  obtain ⟨s', hnext⟩ : ∃ s', TRRun.pass C p.env s = .next s' := by
    rcases TRRun.pass_safe hmm hgap hr hc with ⟨s', h, _⟩ | ⟨s', h, _⟩
    · exact ⟨s', h⟩
    · rw [hpass] at h
      unfold TRRun.St.writeHist at h
      split at h <;> (try split at h) <;> (try split at h) <;> simp at h
  obtain ⟨e1, e2, e3, e4, e5, e6, e7, _⟩ := TRRun.writeHist_next (hpass ▸ hnext)
  have e3' : s'.x1 = p.retr s.x1 eta := e3
  have e7' : s'.Delta = min (if st = .excRegion ∨ st = .negCurv ∨ st = .maxIter then s.Delta * C.magnified else s.Delta) C.maximumDelta := e7
  refine ⟨s', hnext, e1, by rw [e3']; exact hB', by rw [e3']; exact hf, by rw [e2, e3']; rfl, ?_⟩
  obtain ⟨eta', st', ht', hfin⟩ := C120_tcg_finite (L := p.local s.x1 s.Delta) (S.sym _ hB) (S.spd _ hB) (S.inv _ hB) hD hg hmin hk (hdim _)
  rw [ht, Option.some.injEq, Prod.mk.injEq] at ht'
  obtain ⟨rfl, rfl⟩ := ht'
  have hsq : ‖eta‖ ^ 2 ≤ (‖p.g s.x1‖ / mu) ^ 2 := pow_le_pow_left₀ (norm_nonneg _) hlen 2
  rcases hfin with ⟨c1, c2, c3⟩ | ⟨b1, b2⟩
  · left
    have hgr := S.grad _ hB eta hlen
    have hb : beta * ‖eta‖ ^ 2 ≤ beta / mu ^ 2 * ‖p.g s.x1‖ ^ 2 := by
      calc beta * ‖eta‖ ^ 2 ≤ beta * (‖p.g s.x1‖ / mu) ^ 2 := mul_le_mul_of_nonneg_left hsq S.beta0
        _ = _ := by rw [div_pow]; ring
    have c1' : ‖p.g s.x1 + p.H s.x1 eta‖ ≤ p.kappa * ‖p.g s.x1‖ := c1
    have c2' : ‖p.g s.x1 + p.H s.x1 eta‖ ≤ ‖p.g s.x1‖ ^ (1 + p.theta) := c2
    refine ⟨by rw [e3']; linarith, by rw [e3']; linarith, ?_⟩
    rw [e7', if_neg (by rcases c3 with h | h <;> rw [h] <;> simp)]
  · right
    have b1' : ⟪eta, M s.x1 eta⟫ = s.Delta * s.Delta := b1
    refine ⟨?_, ?_⟩
    · rw [pow_two, ← b1']
      exact (S.prec _ hB eta).trans (mul_le_mul_of_nonneg_left hsq S.mpos.le)
    · rw [e7', if_pos (by tauto)]

/-- The constant of the superlinear rate. -/
noncomputable def rateConst (beta mu theta : ℝ) : ℝ := (1 + beta / mu ^ 2) ^ (1 / theta)

/-- The recursion of the rate in a scaled form. -/
theorem rate_step {beta mu theta g g' : ℝ} (hb : 0 ≤ beta) (hmu : 0 < mu) (ht0 : 0 < theta) (ht1 : theta ≤ 1) (hg0 : 0 < g) (hg1 : g ≤ 1)
    (h : g' ≤ g ^ (1 + theta) + beta / mu ^ 2 * g ^ 2) : rateConst beta mu theta * g' ≤ (rateConst beta mu theta * g) ^ (1 + theta) := by
  have hc : 0 < 1 + beta / mu ^ 2 := by positivity
  have hA : 0 < rateConst beta mu theta := Real.rpow_pos_of_pos hc _
  have h1 : g ^ 2 ≤ g ^ (1 + theta) := by
    rw [← Real.rpow_natCast g 2]
    exact Real.rpow_le_rpow_of_exponent_ge hg0 hg1 (by push_cast; linarith)
  have h2 : g' ≤ (1 + beta / mu ^ 2) * g ^ (1 + theta) := by
    have : beta / mu ^ 2 * g ^ 2 ≤ beta / mu ^ 2 * g ^ (1 + theta) := mul_le_mul_of_nonneg_left h1 (by positivity)
    linarith
  have h3 : rateConst beta mu theta ^ (1 + theta) = rateConst beta mu theta * (1 + beta / mu ^ 2) := by
    rw [Real.rpow_add hA, Real.rpow_one]
    congr 1
    unfold rateConst
    rw [← Real.rpow_mul hc.le, one_div, inv_mul_cancel₀ ht0.ne', Real.rpow_one]
  rw [Real.mul_rpow hA.le hg0.le, h3, mul_assoc]
  exact mul_le_mul_of_nonneg_left h2 hA.le

/-- **C120 (the run).** From any state the run reaches in the basin, whatever the radius then is: the run ends by the gradient test within `J (k + 1) + k` further iterations, where `J` magnifications make the radius
larger than any Newton step in the basin and `k` is such that `(A rho) ^ ((1 + theta) ^ k) < A thr` with `A = (1 + beta / mu²) ^ (1 / theta)`; with at most `J` exceptions every iteration satisfies the superlinear estimate of `C120_pass`. -/
theorem C120_fast [∀ x, FiniteDimensional ℝ (T x)] {p : Prob X T} {M : ∀ x, T x →ₗ[ℝ] T x} {B : X → Prop} {mu m gam beta rho thr : ℝ} (S : Basin p M B mu m gam beta rho)
    (hmin : p.minInner = 0) (hk : 0 ≤ p.kappa) (hin : 0 < p.maxInner) (hdim : ∀ x, finrank ℝ (T x) ≤ p.maxInner)
    (ht0 : 0 < p.theta) (ht1 : p.theta ≤ 1) (hrho1 : rho ≤ 1) (hthr : 0 < thr) (hs : ∀ k x y, p.stopped k x y = true ↔ ‖p.g y‖ < thr)
    (C : TRRun.Cfg ℝ) (hrho : C.acceptRho ≤ 3 / 4) (hmi : C.minIter = 0) (hgap : C.outputGap ≠ 0) (hmag : 1 ≤ C.magnified)
    (hmaxpos : 0 < C.maximumDelta) (hmaxD : m * (rho / mu) ^ 2 < C.maximumDelta ^ 2) (k : ℕ)
    (hkk : (rateConst beta mu p.theta * rho) ^ ((1 + p.theta) ^ k) < rateConst beta mu p.theta * thr)
    (J : ℕ) {s : TRRun.St ℝ X} (hr : TRRun.Reaches C p.env s) (hB : B s.x1) (hflag : s.isstop = true ↔ ‖p.g s.x1‖ < thr) (hD : 0 < s.Delta)
    (hJ : m * (rho / mu) ^ 2 < (s.Delta * C.magnified ^ J) ^ 2) (hroom : s.iter + (J * (k + 1) + k) ≤ C.maxIter) :
    ∃ t, TRRun.loop C p.env (J * (k + 1) + k + 1) s = .finished t ∧ ‖p.g t.x1‖ < thr ∧ t.iter ≤ s.iter + (J * (k + 1) + k) ∧ B t.x1 ∧ p.f t.x1 ≤ p.f s.x1 := by
  have hmu := S.mupos
  have hA : 0 < rateConst beta mu p.theta := Real.rpow_pos_of_pos (by have := S.beta0; positivity) _
  have hth : (1 : ℝ) ≤ 1 + p.theta := by linarith
  -- `i` superlinear iterations have been made since the last magnification
  suffices main : ∀ (N i J : ℕ) (s : TRRun.St ℝ X), i ≤ k → J * (k + 1) + (k - i) ≤ N → TRRun.Reaches C p.env s → B s.x1 → (s.isstop = true ↔ ‖p.g s.x1‖ < thr) → 0 < s.Delta →
      m * (rho / mu) ^ 2 < (s.Delta * C.magnified ^ J) ^ 2 → rateConst beta mu p.theta * ‖p.g s.x1‖ ≤ (rateConst beta mu p.theta * rho) ^ ((1 + p.theta) ^ i) →
      s.iter + N ≤ C.maxIter →
      ∃ t, TRRun.loop C p.env (N + 1) s = .finished t ∧ ‖p.g t.x1‖ < thr ∧ t.iter ≤ s.iter + N ∧ B t.x1 ∧ p.f t.x1 ≤ p.f s.x1 by
    refine main _ 0 J s (Nat.zero_le _) (by omega) hr hB hflag hD hJ ?_ hroom
    rw [pow_zero, Real.rpow_one]
    exact mul_le_mul_of_nonneg_left (S.small _ hB) hA.le
  intro N
  induction N with
  | zero =>
    intro i J s hik hN hr hB hflag hD hJ hrate hroom
    have hi : i = k := by omega
    subst hi
    have hlt : ‖p.g s.x1‖ < thr := lt_of_mul_lt_mul_left (lt_of_le_of_lt hrate hkk) hA.le
    have hnc : s.continues C = false := by
      unfold TRRun.St.continues
      rw [hflag.mpr hlt, hmi]
      simp
    refine ⟨s, ?_, hlt, by omega, hB, le_refl _⟩
    simp [TRRun.loop, hnc]
  | succ N ih =>
    intro i J s hik hN hr hB hflag hD hJ hrate hroom
    by_cases hst : s.isstop = true
    · have hnc : s.continues C = false := by
        unfold TRRun.St.continues
        rw [hst, hmi]
        simp
      refine ⟨s, ?_, hflag.mp hst, by omega, hB, le_refl _⟩
      simp [TRRun.loop, hnc]
    · have hc : s.continues C = true := by
        unfold TRRun.St.continues
        simp only [Bool.not_eq_true] at hst
        rw [hst]
        simp only [Bool.not_false, Bool.true_and, Bool.or_eq_true, decide_eq_true_eq]
        left; omega
      have hge : thr ≤ ‖p.g s.x1‖ := by
        by_contra hcon
        push Not at hcon
        exact hst (hflag.mpr hcon)
      have hg : p.g s.x1 ≠ 0 := norm_pos_iff.mp (lt_of_lt_of_le hthr hge)
      obtain ⟨s', hnext, hit, hB', hf', hst', hcase⟩ := C120_pass S hmin hk hin hdim C hrho (by omega) hgap hr hc hB hD hg
      have hr' : TRRun.Reaches C p.env s' := TRRun.Reaches.step hr hc hnext
      have hflag' : s'.isstop = true ↔ ‖p.g s'.x1‖ < thr := by rw [hst']; exact hs _ _ _
      have hmpow : ∀ n : ℕ, 1 ≤ C.magnified ^ n := fun n => one_le_pow₀ hmag
      have hfinish : ∀ i' J' : ℕ, i' ≤ k → J' * (k + 1) + (k - i') ≤ N → 0 < s'.Delta → m * (rho / mu) ^ 2 < (s'.Delta * C.magnified ^ J') ^ 2 →
          rateConst beta mu p.theta * ‖p.g s'.x1‖ ≤ (rateConst beta mu p.theta * rho) ^ ((1 + p.theta) ^ i') →
          ∃ t, TRRun.loop C p.env (N + 1 + 1) s = .finished t ∧ ‖p.g t.x1‖ < thr ∧ t.iter ≤ s.iter + (N + 1) ∧ B t.x1 ∧ p.f t.x1 ≤ p.f s.x1 := by
        intro i' J' h1 h2 h3 h4 h5
        obtain ⟨t, a1, a2, a3, a4, a5⟩ := ih i' J' s' h1 h2 hr' hB' hflag' h3 h4 h5 (by omega)
        refine ⟨t, ?_, a2, by omega, a4, by linarith⟩
        rw [TRRun.loop, if_pos hc, hnext]
        exact a1
      have hmaxJ : ∀ n : ℕ, m * (rho / mu) ^ 2 < (C.maximumDelta * C.magnified ^ n) ^ 2 := by
        intro n
        refine lt_of_lt_of_le hmaxD (pow_le_pow_left₀ hmaxpos.le ?_ 2)
        nlinarith [hmpow n]
      rcases hcase with ⟨_, hgr, hDn⟩ | ⟨hsmall, hDn⟩
      · -- a superlinear step
        have hrate' := rate_step S.beta0 hmu ht0 ht1 (norm_pos_iff.mpr hg) ((S.small _ hB).trans hrho1) hgr
        have hpos : 0 ≤ rateConst beta mu p.theta * rho := mul_nonneg hA.le ((norm_nonneg _).trans (S.small _ hB))
        have hrate'' : rateConst beta mu p.theta * ‖p.g s'.x1‖ ≤ (rateConst beta mu p.theta * rho) ^ ((1 + p.theta) ^ (i + 1)) := by
          refine hrate'.trans ((Real.rpow_le_rpow (mul_nonneg hA.le (norm_nonneg _)) hrate (by linarith)).trans ?_)
          rw [← Real.rpow_mul hpos, pow_succ]
        have hD' : 0 < s'.Delta := by rw [hDn]; exact lt_min hD hmaxpos
        have hJ' : m * (rho / mu) ^ 2 < (s'.Delta * C.magnified ^ J) ^ 2 := by
          rw [hDn]
          rcases le_total s.Delta C.maximumDelta with h | h
          · rw [min_eq_left h]; exact hJ
          · rw [min_eq_right h]; exact hmaxJ J
        by_cases hik' : i = k
        · exfalso
          subst hik'
          have hlt : ‖p.g s.x1‖ < thr := lt_of_mul_lt_mul_left (lt_of_le_of_lt hrate hkk) hA.le
          linarith
        · exact hfinish (i + 1) J (by omega) (by omega) hD' hJ' hrate''
      · -- a step to the boundary
        cases J with
        | zero =>
          exfalso
          rw [pow_zero, mul_one] at hJ
          have : m * (‖p.g s.x1‖ / mu) ^ 2 ≤ m * (rho / mu) ^ 2 :=
            mul_le_mul_of_nonneg_left (pow_le_pow_left₀ (by positivity) (div_le_div_of_nonneg_right (S.small _ hB) hmu.le) 2) S.mpos.le
          linarith
        | succ J =>
          have hD' : 0 < s'.Delta := by rw [hDn]; exact lt_min (mul_pos hD (by linarith)) hmaxpos
          have hJ' : m * (rho / mu) ^ 2 < (s'.Delta * C.magnified ^ J) ^ 2 := by
            rw [hDn]
            rcases le_total (s.Delta * C.magnified) C.maximumDelta with h | h
            · rw [min_eq_left h, mul_assoc, ← pow_succ']; exact hJ
            · rw [min_eq_right h]; exact hmaxJ J
          refine hfinish 0 J (Nat.zero_le _) ?_ hD' hJ' ?_
          · rw [Nat.add_mul] at hN; omega
          · rw [pow_zero, Real.rpow_one]
            exact mul_le_mul_of_nonneg_left (S.small _ hB') hA.le

/-- The number of superlinear steps exists whenever `A rho < 1`. -/
theorem C120_steps_exist {A rho theta thr : ℝ} (hA : 0 < A) (hr0 : 0 ≤ rho) (h1 : A * rho < 1) (ht : 0 < theta) (hthr : 0 < thr) :
    ∃ k : ℕ, (A * rho) ^ ((1 + theta) ^ k) < A * thr := by
  have hq0 : 0 ≤ A * rho := mul_nonneg hA.le hr0
  obtain ⟨n, hn⟩ := exists_pow_lt_of_lt_one (mul_pos hA hthr) h1
  obtain ⟨k, hk⟩ := pow_unbounded_of_one_lt (n : ℝ) (by linarith : (1 : ℝ) < 1 + theta)
  refine ⟨k, ?_⟩
  rcases hq0.eq_or_lt with h0 | hpos
  · rw [← h0, Real.zero_rpow (by positivity)]
    exact mul_pos hA hthr
  · refine lt_of_le_of_lt ?_ hn
    have := Real.rpow_le_rpow_of_exponent_ge hpos h1.le hk.le
    rwa [Real.rpow_natCast] at this

end run

/-! ### A concrete case: `f(x) = x² + x⁴` on the line -/

/-- The objective `x² + x⁴` with exact Hessian. -/
noncomputable def quarticProb (thr : ℝ) : Prob ℝ (fun _ => ℝ) where
  f x := x ^ 2 + x ^ 4
  g x := 2 * x + 4 * x ^ 3
  H x := (2 + 12 * x ^ 2) • LinearMap.id
  P _ := LinearMap.id
  retr x v := x + v
  x0 := 1 / 100
  theta := 1
  kappa := 1 / 10
  minInner := 0
  maxInner := 5
  stopped0 := decide (‖(2 * (1 / 100) + 4 * (1 / 100) ^ 3 : ℝ)‖ < thr)
  stopped _ _ y := decide (‖(2 * y + 4 * y ^ 3 : ℝ)‖ < thr)

theorem quartic_basin (thr : ℝ) : Basin (quarticProb thr) (fun _ => LinearMap.id) (fun x => |x| ≤ 1 / 100) 2 1 1 1 (1 / 40) where
  sym x _ u v := by simp only [quarticProb, LinearMap.smul_apply, LinearMap.id_apply, real_inner_smul_left, real_inner_smul_right]
  spd x _ := id_spd _
  inv x _ := ⟨fun _ => rfl, fun _ => rfl⟩
  convex x _ v := by
    simp only [quarticProb, LinearMap.smul_apply, LinearMap.id_apply, real_inner_smul_right, real_inner_self_eq_norm_sq]
    have : 0 ≤ x ^ 2 * ‖v‖ ^ 2 := by positivity
    nlinarith
  prec x _ v := by simp only [LinearMap.id_apply, real_inner_self_eq_norm_sq, one_mul, le_refl]
  small x hx := by
    simp only [quarticProb, Real.norm_eq_abs]
    obtain ⟨h1, h2⟩ := abs_le.mp hx
    have h3 : x ^ 2 ≤ 1 / 10000 := by nlinarith
    rw [abs_le]
    constructor <;> nlinarith
  taylor x hx v hv := by
    simp only [quarticProb, LinearMap.smul_apply, LinearMap.id_apply, Real.norm_eq_abs] at hv ⊢
    have e : (x + v) ^ 2 + (x + v) ^ 4 - (x ^ 2 + x ^ 4) - (⟪v, 2 * x + 4 * x ^ 3⟫ + 1 / 2 * ⟪v, (2 + 12 * x ^ 2) • v⟫) = (4 * x + v) * v ^ 3 := by
      simp only [smul_eq_mul, RCLike.inner_apply, conj_trivial]
      ring
    rw [e, abs_mul, abs_pow]
    have h1 : |2 * x + 4 * x ^ 3| ≤ 1 / 40 := by
      obtain ⟨h1, h2⟩ := abs_le.mp hx
      have h3 : x ^ 2 ≤ 1 / 10000 := by nlinarith
      rw [abs_le]
      constructor <;> nlinarith
    have h2 : |4 * x + v| ≤ 1 := by
      have := abs_add_le (4 * x) v
      rw [abs_mul, abs_of_pos (by norm_num : (0 : ℝ) < 4)] at this
      linarith
    exact mul_le_mul_of_nonneg_right h2 (by positivity)
  grad x hx v hv := by
    simp only [quarticProb, LinearMap.smul_apply, LinearMap.id_apply, Real.norm_eq_abs, smul_eq_mul] at hv ⊢
    have e : 2 * (x + v) + 4 * (x + v) ^ 3 = (2 * x + 4 * x ^ 3 + (2 + 12 * x ^ 2) * v) + (12 * x + 4 * v) * v ^ 2 := by ring
    rw [e]
    refine (abs_add_le _ _).trans (add_le_add le_rfl ?_)
    rw [abs_mul, abs_pow]
    have h1 : |2 * x + 4 * x ^ 3| ≤ 1 / 40 := by
      obtain ⟨h1, h2⟩ := abs_le.mp hx
      have h3 : x ^ 2 ≤ 1 / 10000 := by nlinarith
      rw [abs_le]
      constructor <;> nlinarith
    have h2 : |12 * x + 4 * v| ≤ 1 := by
      have := abs_add_le (12 * x) (4 * v)
      rw [abs_mul, abs_mul, abs_of_pos (by norm_num : (0 : ℝ) < 4), abs_of_pos (by norm_num : (0 : ℝ) < 12)] at this
      linarith
    exact mul_le_mul_of_nonneg_right h2 (by positivity)
  stay x hx v _ hf := by
    simp only [quarticProb] at hf ⊢
    refine le_trans ?_ hx
    rw [← sq_le_sq]
    by_contra hcon
    push Not at hcon
    nlinarith [sq_nonneg x, sq_nonneg (x + v)]
  mupos := by norm_num
  mpos := by norm_num
  gam0 := by norm_num
  beta0 := by norm_num
  fit := by norm_num

/-- C120 applied: the run on `x² + x⁴` from `1/100` reaches every positive gradient norm. -/
example (thr : ℝ) (hthr : 0 < thr) : ∃ (C : TRRun.Cfg ℝ) (k : ℕ) (t : TRRun.St ℝ ℝ), TRRun.run C (quarticProb thr).env (k + 1) = .finished t ∧
    ‖(2 * t.x1 + 4 * t.x1 ^ 3 : ℝ)‖ < thr ∧ t.iter ≤ k ∧ (rateConst 1 2 1 * (1 / 40)) ^ (((1 : ℝ) + 1) ^ k) < rateConst 1 2 1 * thr := by
  have hA : rateConst 1 2 1 = 5 / 4 := by unfold rateConst; norm_num
  obtain ⟨k, hk⟩ := C120_steps_exist (A := rateConst 1 2 1) (rho := 1 / 40) (theta := 1) (thr := thr) (by rw [hA]; norm_num) (by norm_num) (by rw [hA]; norm_num) one_pos hthr
  let C : TRRun.Cfg ℝ := { maxIter := k, minIter := 0, outputGap := 1, record := true, initialDelta := 1, maximumDelta := 1000, minimumDelta := 0
                           magnified := 2, shrinked := 1 / 4, acceptRho := 1 / 10, accuracy := 0, tolerance := 1 / 1000, sqeps := 1 / 10 ^ 8 }
  obtain ⟨t, h1, h2, h3, _⟩ := C120_fast (thr := thr) (quartic_basin thr) rfl (by norm_num [quarticProb]) (by norm_num [quarticProb])
    (fun x => by simp [quarticProb]) (by norm_num [quarticProb]) (by norm_num [quarticProb]) (by norm_num) hthr
    (fun k x y => by simp [quarticProb]) C (by norm_num [C]) rfl (by simp [C]) (by norm_num [C]) (by norm_num [C]) (by norm_num [C]) k hk 0
    (s := TRRun.St.init C (quarticProb thr).env) TRRun.Reaches.init (by simp [TRRun.St.init, Prob.env, quarticProb])
    (by simp [TRRun.St.init, Prob.env, quarticProb]) (by norm_num [TRRun.St.init, C]) (by norm_num [TRRun.St.init, C]) (by simp [TRRun.St.init, C])
  refine ⟨C, k, t, ?_, h2, ?_, hk⟩
  · simpa [TRRun.run] using h1
  · simpa [TRRun.St.init] using h3

end Verif.TR
