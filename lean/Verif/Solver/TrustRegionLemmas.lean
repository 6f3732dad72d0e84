import Verif.Solver.TrustRegion
import Verif.Props.QuasiNewton

/-!
# Invariants of the conjugate gradient loops
-/

set_option linter.unusedSectionVars false

namespace Verif.TR

open scoped RealInnerProductSpace Classical
open Verif.QN (IsSym IsSPD)
open Verif.TRRun (Status)

variable {E : Type*} [NormedAddCommGroup E] [InnerProductSpace ℝ E]

/-- The quadratic model of the objective. -/
noncomputable def model (g : E) (H : E →ₗ[ℝ] E) (eta : E) : ℝ := ⟪eta, g⟫ + 1 / 2 * ⟪eta, H eta⟫

/-- `M` is the inverse of the preconditioner. -/
structure Inverse (P M : E →ₗ[ℝ] E) : Prop where
  left : ∀ v, M (P v) = v
  right : ∀ v, P (M v) = v

theorem Inverse.sym {P M : E →ₗ[ℝ] E} (h : Inverse P M) (hP : IsSym P) : IsSym M := by
  intro u v
  conv_lhs => rw [← h.right v]
  conv_rhs => rw [← h.right u]
  rw [hP]

theorem Inverse.pos {P M : E →ₗ[ℝ] E} (h : Inverse P M) (hP : IsSPD P) {v : E} (hv : v ≠ 0) :
    0 < ⟪v, M v⟫ := by
  have hMv : M v ≠ 0 := by
    intro h0
    apply hv
    rw [← h.right v, h0, map_zero]
  have := hP.2 _ hMv
  rwa [h.right] at this

/-- The conjugate gradient invariant; `K` is the space spanned by the directions used so far. -/
structure CGInv (L : Local E) (M : E →ₗ[ℝ] E) (K : Submodule ℝ E) (s : CG E) : Prop where
  eta_mem : s.eta ∈ K
  Heta_eq : s.Heta = L.H s.eta
  r_eq : s.r = L.g + L.H s.eta
  r_orth : ∀ d ∈ K, ⟪s.r, d⟫ = 0
  conj : ∀ d ∈ K, ⟪L.H s.delta, d⟫ = 0
  krylov : ∀ d ∈ K, L.P (L.H d) ∈ K ⊔ Submodule.span ℝ {s.delta}
  dz : s.delta + L.P s.r ∈ K
  zr_eq : s.zr = ⟪L.P s.r, s.r⟫
  ePe_eq : s.ePe = ⟪s.eta, M s.eta⟫
  ePd_eq : s.ePd = ⟪s.eta, M s.delta⟫
  dPd_eq : s.dPd = ⟪s.delta, M s.delta⟫
  ePd_nonneg : 0 ≤ s.ePd

theorem start_inv (L : Local E) (M : E →ₗ[ℝ] E) (hM : Inverse L.P M) :
    CGInv L M ⊥ L.start where
  eta_mem := by simp [Local.start]
  Heta_eq := by simp [Local.start]
  r_eq := by simp [Local.start]
  r_orth := by intro d hd; rw [Submodule.mem_bot] at hd; simp [hd]
  conj := by intro d hd; rw [Submodule.mem_bot] at hd; simp [hd]
  krylov := by intro d hd; rw [Submodule.mem_bot] at hd; simp [hd]
  dz := by simp [Local.start]
  zr_eq := rfl
  ePe_eq := by simp [Local.start]
  ePd_eq := by simp [Local.start]
  dPd_eq := by simp [Local.start, hM.left, real_inner_comm]
  ePd_nonneg := le_refl _

section
variable {L : Local E} {M : E →ₗ[ℝ] E} {K : Submodule ℝ E} {s : CG E}

theorem CGInv.r_delta (h : CGInv L M K s) : ⟪s.r, s.delta⟫ = -s.zr := by
  have := h.r_orth _ h.dz
  rw [inner_add_right] at this
  rw [h.zr_eq, real_inner_comm s.r (L.P s.r)]
  linarith

theorem CGInv.zr_pos (h : CGInv L M K s) (hP : IsSPD L.P) (hr : s.r ≠ 0) : 0 < s.zr := by
  rw [h.zr_eq]; exact hP.2 _ hr

theorem CGInv.delta_ne (h : CGInv L M K s) (hP : IsSPD L.P) (hr : s.r ≠ 0) : s.delta ≠ 0 := by
  intro h0
  have h1 := h.r_delta
  rw [h0, inner_zero_right] at h1
  have := h.zr_pos hP hr
  linarith

theorem CGInv.dPd_pos (h : CGInv L M K s) (hM : Inverse L.P M) (hP : IsSPD L.P) (hr : s.r ≠ 0) :
    0 < s.dPd := by
  rw [h.dPd_eq]; exact hM.pos hP (h.delta_ne hP hr)

/-- Model value along the current direction. -/
theorem CGInv.model_along (h : CGInv L M K s) (hH : IsSym L.H) (t : ℝ) :
    model L.g L.H (s.eta + t • s.delta) =
      model L.g L.H s.eta - t * s.zr + 1 / 2 * (t * t) * ⟪s.delta, L.H s.delta⟫ := by
  have h1 := h.r_delta
  have h2 : ⟪s.r, s.delta⟫ = ⟪s.delta, L.g⟫ + ⟪s.eta, L.H s.delta⟫ := by
    rw [h.r_eq, inner_add_left, hH, real_inner_comm L.g]
  have h3 : ⟪s.delta, L.H s.eta⟫ = ⟪s.eta, L.H s.delta⟫ := by rw [← hH, real_inner_comm]
  unfold model
  simp only [inner_add_left, inner_add_right, inner_smul_left, inner_smul_right, map_add, map_smul,
    conj_trivial, h3]
  linear_combination t * h1 - t * h2

/-- Squared preconditioner norm along the current direction. -/
theorem CGInv.norm_along (h : CGInv L M K s) (hM : IsSym M) (t : ℝ) :
    ⟪s.eta + t • s.delta, M (s.eta + t • s.delta)⟫ = ePeNew s t := by
  have h3 : ⟪s.delta, M s.eta⟫ = ⟪s.eta, M s.delta⟫ := by rw [← hM, real_inner_comm]
  unfold ePeNew
  rw [h.ePe_eq, h.ePd_eq, h.dPd_eq]
  simp only [inner_add_left, inner_add_right, inner_smul_left, inner_smul_right, map_add, map_smul,
    conj_trivial, h3]
  ring

/-- One conjugate gradient step keeps the invariant (any `Heta`-like bookkeeping aside). -/
theorem CGInv.step (h : CGInv L M K s) (hH : IsSym L.H) (hP : IsSPD L.P) (hM : Inverse L.P M)
    (hd : 0 < ⟪s.delta, L.H s.delta⟫) (hz : 0 < s.zr) (mv : ℝ) :
    let alpha := s.zr / ⟪s.delta, L.H s.delta⟫
    CGInv L M (K ⊔ Submodule.span ℝ {s.delta})
      (cgDir L { cgMove L s alpha with modelv := mv } alpha (ePeNew s alpha)) := by
  intro alpha
  set D := ⟪s.delta, L.H s.delta⟫ with hD
  set K' := K ⊔ Submodule.span ℝ {s.delta} with hK'
  have ha : alpha * D = s.zr := div_mul_cancel₀ _ hd.ne'
  have hapos : 0 < alpha := div_pos hz hd
  set r' := s.r + alpha • L.H s.delta with hr'
  set beta := ⟪L.P r', r'⟫ / s.zr with hbeta
  have hmemδ : s.delta ∈ K' := (le_sup_right : _ ≤ K') (Submodule.mem_span_singleton_self _)
  have hle : ∀ d ∈ K, d ∈ K' := fun d hd => (le_sup_left : _ ≤ K') hd
  -- new residual is orthogonal to K'
  have horth : ∀ d ∈ K', ⟪r', d⟫ = 0 := by
    intro d hd'
    obtain ⟨k, hk, w, hw, rfl⟩ := Submodule.mem_sup.mp hd'
    obtain ⟨c, rfl⟩ := Submodule.mem_span_singleton.mp hw
    have e1 := h.r_orth k hk
    have e2 := h.conj k hk
    have e3 := h.r_delta
    have e4 : ⟪L.H s.delta, s.delta⟫ = D := by rw [hD, real_inner_comm]
    rw [hr', inner_add_left, inner_add_right, inner_add_right, inner_smul_left, inner_smul_left,
      inner_smul_right, inner_smul_right, e1, e2, e3, e4]
    simp only [conj_trivial]
    linear_combination c * ha
  have hzmem : L.P s.r ∈ K' := by
    have : L.P s.r = (s.delta + L.P s.r) - s.delta := by abel
    rw [this]
    exact Submodule.sub_mem _ (hle _ h.dz) hmemδ
  have heta : s.eta + alpha • s.delta ∈ K' :=
    Submodule.add_mem _ (hle _ h.eta_mem) (Submodule.smul_mem _ _ hmemδ)
  have hMsym := hM.sym hP.1
  refine
    { eta_mem := heta
      Heta_eq := ?_
      r_eq := ?_
      r_orth := horth
      conj := ?_
      krylov := ?_
      dz := ?_
      zr_eq := rfl
      ePe_eq := ?_
      ePd_eq := ?_
      dPd_eq := ?_
      ePd_nonneg := ?_ }
  · show s.Heta + alpha • L.H s.delta = L.H (s.eta + alpha • s.delta)
    rw [h.Heta_eq, map_add, map_smul]
  · show r' = L.g + L.H (s.eta + alpha • s.delta)
    rw [hr', h.r_eq, map_add, map_smul, add_assoc]
  · intro d hd'
    show ⟪L.H (beta • s.delta - L.P r'), d⟫ = 0
    obtain ⟨k, hk, w, hw, rfl⟩ := Submodule.mem_sup.mp hd'
    obtain ⟨c, rfl⟩ := Submodule.mem_span_singleton.mp hw
    have e1 : ⟪L.H (L.P r'), k⟫ = 0 := by
      rw [hH, hP.1]; exact horth _ (h.krylov k hk)
    have e2 : alpha * ⟪L.H (L.P r'), s.delta⟫ = ⟪L.P r', r'⟫ := by
      have : ⟪L.P r', s.r⟫ = 0 := by
        rw [hP.1]; exact horth _ hzmem
      have e : ⟪L.P r', r'⟫ = ⟪L.P r', s.r⟫ + alpha * ⟪L.P r', L.H s.delta⟫ := by
        conv_lhs => rw [hr', inner_add_right, inner_smul_right]
      rw [e, this, zero_add, hH]
    have e2' : ⟪L.H (L.P r'), s.delta⟫ = beta * D := by
      have hb : beta * s.zr = ⟪L.P r', r'⟫ := div_mul_cancel₀ _ hz.ne'
      have : alpha * ⟪L.H (L.P r'), s.delta⟫ = alpha * (beta * D) := by
        rw [e2, ← hb, ← ha]; ring
      exact mul_left_cancel₀ hapos.ne' this
    have e3 : ⟪L.H s.delta, k⟫ = 0 := h.conj k hk
    have e4 : ⟪L.H s.delta, s.delta⟫ = D := by rw [hD, real_inner_comm]
    rw [map_sub, map_smul, inner_sub_left, inner_add_right, inner_add_right, inner_smul_left,
      inner_smul_left, inner_smul_right, inner_smul_right, e1, e2', e3, e4]
    simp only [conj_trivial]
    ring
  · intro d hd'
    show L.P (L.H d) ∈ K' ⊔ Submodule.span ℝ {beta • s.delta - L.P r'}
    obtain ⟨k, hk, w, hw, rfl⟩ := Submodule.mem_sup.mp hd'
    obtain ⟨c, rfl⟩ := Submodule.mem_span_singleton.mp hw
    have esplit : L.P (L.H (k + c • s.delta)) = L.P (L.H k) + c • L.P (L.H s.delta) := by
      simp only [map_add, map_smul]
    rw [esplit]
    apply Submodule.add_mem
    · exact (le_sup_left : K' ≤ _) (h.krylov k hk)
    · apply Submodule.smul_mem
      -- P H delta = (P r' - P r) / alpha
      have e : L.P (L.H s.delta) = (1 / alpha) • (L.P r' - L.P s.r) := by
        rw [hr', map_add, map_smul, add_sub_cancel_left, smul_smul, one_div_mul_cancel hapos.ne',
          one_smul]
      rw [e]
      apply Submodule.smul_mem
      apply Submodule.sub_mem
      · have hm := Submodule.sub_mem (K' ⊔ Submodule.span ℝ {beta • s.delta - L.P r'})
          ((le_sup_left : K' ≤ _) (Submodule.smul_mem _ beta hmemδ))
          ((le_sup_right : Submodule.span ℝ {beta • s.delta - L.P r'} ≤ _)
            (Submodule.mem_span_singleton_self _))
        rwa [sub_sub_cancel] at hm
      · exact (le_sup_left : K' ≤ _) hzmem
  · show beta • s.delta - L.P r' + L.P r' ∈ K'
    rw [sub_add_cancel]
    exact Submodule.smul_mem _ _ hmemδ
  · show ePeNew s alpha = ⟪s.eta + alpha • s.delta, M (s.eta + alpha • s.delta)⟫
    rw [h.norm_along hMsym]
  · show beta * (s.ePd + alpha * s.dPd) =
      ⟪s.eta + alpha • s.delta, M (beta • s.delta - L.P r')⟫
    rw [map_sub, map_smul, hM.left, inner_sub_right, inner_smul_right, inner_add_left,
      inner_smul_left, ← h.ePd_eq, ← h.dPd_eq, real_inner_comm r' (s.eta + alpha • s.delta),
      horth _ heta]
    simp only [conj_trivial]
    ring
  · show ⟪L.P r', r'⟫ + beta * beta * s.dPd =
      ⟪beta • s.delta - L.P r', M (beta • s.delta - L.P r')⟫
    have e1 : ⟪s.delta, r'⟫ = 0 := by rw [real_inner_comm]; exact horth _ hmemδ
    have e2 : ⟪L.P r', M s.delta⟫ = 0 := by rw [← hMsym, hM.left]; exact horth _ hmemδ
    rw [map_sub, map_smul, hM.left]
    simp only [inner_sub_left, inner_sub_right, inner_smul_left, inner_smul_right, conj_trivial, e1,
      e2, ← h.dPd_eq]
    ring
  · show 0 ≤ beta * (s.ePd + alpha * s.dPd)
    have hb : 0 ≤ beta := by
      apply div_nonneg _ hz.le
      by_cases hr0 : r' = 0
      · rw [hr0]; simp
      · exact (hP.2 _ hr0).le
    have hdP : 0 ≤ s.dPd := by
      rw [h.dPd_eq]
      by_cases h0 : s.delta = 0
      · rw [h0]; simp
      · exact (hM.pos hP h0).le
    have := h.ePd_nonneg
    positivity

/-- `phi(t) = |eta + t delta|^2` is increasing for `t >= 0`. -/
theorem ePeNew_mono (hd : 0 ≤ s.dPd) (he : 0 ≤ s.ePd) {a b : ℝ} (h0 : 0 ≤ a) (hab : a ≤ b) :
    ePeNew s a ≤ ePeNew s b := by
  unfold ePeNew
  nlinarith [mul_nonneg (sub_nonneg.mpr hab) he, mul_nonneg (sub_nonneg.mpr hab) hd,
    mul_nonneg (mul_nonneg (sub_nonneg.mpr hab) (by linarith : 0 ≤ a + b)) hd]

theorem ePeNew_strict (hd : 0 < s.dPd) (he : 0 ≤ s.ePd) {a b : ℝ} (h0 : 0 ≤ a) (hab : a < b) :
    ePeNew s a < ePeNew s b := by
  unfold ePeNew
  nlinarith [mul_nonneg (sub_nonneg.mpr hab.le) he,
    mul_pos (mul_pos (sub_pos.mpr hab) (by linarith : 0 < a + b)) hd]

/-- The step to the boundary. -/
theorem tau_spec {Delta : ℝ} (hd : 0 < s.dPd) (hin : s.ePe < Delta * Delta) :
    ∃ t, tau Delta s = some t ∧ (0 ≤ s.ePd → 0 < t) ∧ ePeNew s t = Delta * Delta := by
  have harg : 0 ≤ s.ePd * s.ePd + s.dPd * (Delta * Delta - s.ePe) := by
    have := mul_pos hd (sub_pos.mpr hin)
    nlinarith [mul_self_nonneg s.ePd]
  refine ⟨(-s.ePd + Real.sqrt (s.ePd * s.ePd + s.dPd * (Delta * Delta - s.ePe))) / s.dPd, ?_, ?_, ?_⟩
  · unfold tau
    rw [if_neg]
    rintro (h | h)
    · exact hd.ne' h
    · exact absurd h (not_lt.mpr harg)
  · intro he
    apply div_pos _ hd
    have h1 := mul_pos hd (sub_pos.mpr hin)
    have : s.ePd < Real.sqrt (s.ePd * s.ePd + s.dPd * (Delta * Delta - s.ePe)) := by
      apply Real.lt_sqrt_of_sq_lt
      nlinarith
    linarith
  · set q := Real.sqrt (s.ePd * s.ePd + s.dPd * (Delta * Delta - s.ePe)) with hq
    have hq2 : q * q = s.ePd * s.ePd + s.dPd * (Delta * Delta - s.ePe) := Real.mul_self_sqrt harg
    unfold ePeNew
    field_simp
    nlinarith

end

end Verif.TR
