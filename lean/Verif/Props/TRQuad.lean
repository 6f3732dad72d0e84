import Verif.Props.TrustRegion
import Mathlib.LinearAlgebra.FiniteDimensional.Lemmas
import Mathlib.Analysis.InnerProductSpace.PiL2

/-!
# C167, C168: the trust-region solvers on quadratic functions
-/

set_option linter.unusedSectionVars false

namespace Verif.TR

open scoped RealInnerProductSpace Classical
open Verif.QN (IsSym IsSPD)
open Verif.TRRun (Status)

variable {E : Type*} [NormedAddCommGroup E] [InnerProductSpace ℝ E]

section
variable {L : Local E} {M : E →ₗ[ℝ] E}

/-- The space of the directions grows in every pass. -/
theorem CGInv.grows [FiniteDimensional ℝ E] {K : Submodule ℝ E} {s : CG E} (h : CGInv L M K s)
    (hP : IsSPD L.P) (hr : s.r ≠ 0) :
    Module.finrank ℝ K + 1 ≤ Module.finrank ℝ (K ⊔ Submodule.span ℝ {s.delta} : Submodule ℝ E) := by
  have hd : s.delta ∉ K := by
    intro hm
    have h1 := h.r_orth _ hm
    rw [h.r_delta] at h1
    have := h.zr_pos hP hr
    linarith
  refine Submodule.finrank_lt_finrank_of_lt (lt_of_le_of_ne le_sup_left ?_)
  intro he
  exact hd (he ▸ (le_sup_right : Submodule.span ℝ {s.delta} ≤ _) (Submodule.mem_span_singleton_self _))

/-- With a nonzero residual the space is not everything. -/
theorem CGInv.room [FiniteDimensional ℝ E] {K : Submodule ℝ E} {s : CG E} (h : CGInv L M K s)
    (hr : s.r ≠ 0) : Module.finrank ℝ K < Module.finrank ℝ E := by
  refine Submodule.finrank_lt ?_
  rintro rfl
  exact hr (inner_self_eq_zero.mp (h.r_orth _ Submodule.mem_top))

theorem tcg_enough [FiniteDimensional ℝ E] (hH : IsSym L.H) (hP : IsSPD L.P) (hM : Inverse L.P M)
    (hmin : L.minInner = 0) (htol : 0 ≤ L.tol) :
    ∀ (n j : Nat) (K : Submodule ℝ E) (s : CG E), CGInv L M K s → s.r ≠ 0 →
      Module.finrank ℝ E ≤ Module.finrank ℝ K + n → ∀ n', n ≤ n' →
      tcg L n' j s = tcg L n j s ∧ ∀ eta, tcg L n j s ≠ some (eta, .maxIter) := by
  intro n
  induction n with
  | zero => intro j K s h hr hf; have := h.room hr; omega
  | succ n ih =>
    intro j K s h hr hf n' hn'
    obtain ⟨n', rfl⟩ : ∃ k, n' = k + 1 := ⟨n' - 1, by omega⟩
    have hz := h.zr_pos hP hr
    simp only [tcg]
    by_cases hexit : ⟪s.delta, L.H s.delta⟫ ≤ 0 ∨ L.Delta * L.Delta ≤ ePeNew s (s.zr / ⟪s.delta, L.H s.delta⟫)
    · rw [if_pos hexit, if_pos hexit]
      refine ⟨rfl, fun eta he => ?_⟩
      rw [Option.map_eq_some_iff] at he
      obtain ⟨t, -, he⟩ := he
      have := congrArg Prod.snd he
      simp only at this
      split at this <;> cases this
    · rw [if_neg hexit, if_neg hexit]
      push Not at hexit
      obtain ⟨hDpos, -⟩ := hexit
      split
      · exact ⟨rfl, fun eta he => by cases he⟩
      · split
        · refine ⟨rfl, fun eta he => ?_⟩
          have := congrArg Prod.snd (Option.some.inj he)
          simp only [Local.conv] at this
          split at this <;> cases this
        · rename_i hconv
          simp only [if_neg hz.ne']
          have hinv := h.step hH hP hM hDpos hz (cgMove L s (s.zr / ⟪s.delta, L.H s.delta⟫)).modelv
          refine ih (j + 1) _ _ hinv ?_ ?_ n' (by omega)
          · intro hr0
            apply hconv
            refine ⟨by omega, ?_⟩
            have : (cgMove L s (s.zr / ⟪s.delta, L.H s.delta⟫)).r = 0 := hr0
            rw [this, norm_zero]
            exact htol
          · have := h.grows hP hr; omega

theorem tol_nonneg (hk : 0 ≤ L.kappa) : 0 ≤ L.tol := by
  unfold Local.tol
  dsimp only
  refine mul_nonneg (norm_nonneg _) ?_
  split
  · exact Real.rpow_nonneg (norm_nonneg _) _
  · exact hk

/-- **C167.** The inner solver of the trust-region methods makes at most as many passes as the tangent space has
dimensions, for every symmetric Hessian (definite or not) and every positive definite preconditioner: a larger
limit on the passes changes nothing, and the limit is not the reason for ending. -/
theorem C167_passes [FiniteDimensional ℝ E] (hH : IsSym L.H) (hP : IsSPD L.P) (hM : Inverse L.P M)
    (hg : L.g ≠ 0) (hmin : L.minInner = 0) (hk : 0 ≤ L.kappa) (maxInner : Nat)
    (h : Module.finrank ℝ E ≤ maxInner) :
    tCG L maxInner = tCG L (Module.finrank ℝ E) ∧ ∀ eta, tCG L maxInner ≠ some (eta, .maxIter) := by
  have := tcg_enough hH hP hM hmin (tol_nonneg hk) (Module.finrank ℝ E) 0 ⊥ L.start (start_inv L M hM) hg
    (by simp) maxInner h
  unfold tCG
  exact ⟨this.1, by rw [this.1]; exact this.2⟩

/-- The iterates of the inner solver are not longer than the Newton step. -/
theorem inside_newton [FiniteDimensional ℝ E] (hH : IsSPD L.H) (hP : IsSPD L.P) (hM : Inverse L.P M)
    {w : E} (hw : L.g + L.H w = 0) :
    ∀ (n : Nat) (K : Submodule ℝ E) (s : CG E), CGInv L M K s → s.r ≠ 0 →
      Module.finrank ℝ E ≤ Module.finrank ℝ K + n →
      ePeNew s (s.zr / ⟪s.delta, L.H s.delta⟫) ≤ ⟪w, M w⟫ := by
  have hpos : ∀ v, v ≠ 0 → 0 < ⟪v, L.H v⟫ := fun v hv => by rw [real_inner_comm]; exact hH.2 v hv
  intro n
  induction n with
  | zero => intro K s h hr hf; have := h.room hr; omega
  | succ n ih =>
    intro K s h hr hf
    have hz := h.zr_pos hP hr
    have hDpos := hpos _ (h.delta_ne hP hr)
    have hinv := h.step hH.1 hP hM hDpos hz (cgMove L s (s.zr / ⟪s.delta, L.H s.delta⟫)).modelv
    set s' := cgDir L { cgMove L s (s.zr / ⟪s.delta, L.H s.delta⟫) with
      modelv := (cgMove L s (s.zr / ⟪s.delta, L.H s.delta⟫)).modelv } (s.zr / ⟪s.delta, L.H s.delta⟫)
      (ePeNew s (s.zr / ⟪s.delta, L.H s.delta⟫)) with hs'
    have he : s'.ePe = ePeNew s (s.zr / ⟪s.delta, L.H s.delta⟫) := rfl
    rw [← he]
    by_cases hr' : s'.r = 0
    · -- the Newton step has been reached
      have h1 := hinv.r_eq
      rw [hr'] at h1
      have h2 : L.H (w - s'.eta) = 0 := by
        have e : L.g + L.H w = L.g + L.H s'.eta := by rw [hw, ← h1]
        rw [map_sub, add_left_cancel e, sub_self]
      have h3 : w = s'.eta := by
        by_contra hne
        have := hpos _ (sub_ne_zero.mpr hne)
        rw [h2, inner_zero_right] at this
        exact lt_irrefl _ this
      rw [hinv.ePe_eq, h3]
    · have hz' := hinv.zr_pos hP hr'
      have hD' := hpos _ (hinv.delta_ne hP hr')
      have hb := ih _ _ hinv hr' (by have := h.grows hP hr; omega)
      have h1 : ePeNew s' 0 ≤ ePeNew s' (s'.zr / ⟪s'.delta, L.H s'.delta⟫) :=
        ePeNew_mono (hinv.dPd_pos hM hP hr').le hinv.ePd_nonneg le_rfl (div_pos hz' hD').le
      have h0 : ePeNew s' 0 = s'.ePe := by simp [ePeNew]
      linarith

/-- **C167.** With a positive definite Hessian, `kappa = 0` and the Newton step inside the region, the inner
solver returns the Newton step exactly. -/
theorem C167_newton_step [FiniteDimensional ℝ E] (hH : IsSPD L.H) (hP : IsSPD L.P) (hM : Inverse L.P M)
    (hDelta : 0 < L.Delta) (hg : L.g ≠ 0) (hmin : L.minInner = 0) (hk : L.kappa = 0) {w : E}
    (hw : L.g + L.H w = 0) (hin : ⟪w, M w⟫ < L.Delta * L.Delta) (maxInner : Nat)
    (h : Module.finrank ℝ E ≤ maxInner) :
    ∃ st, tCG L maxInner = some (w, st) ∧ (st = .lCon ∨ st = .sCon) := by
  have hpos : ∀ v, v ≠ 0 → 0 < ⟪v, L.H v⟫ := fun v hv => by rw [real_inner_comm]; exact hH.2 v hv
  have hpass := C167_passes hH.1 hP hM hg hmin hk.ge maxInner h
  obtain ⟨⟨eta, st⟩, hres⟩ := C21_tcg_no_breakdown hH.1 hP hM hDelta hg hmin hk.ge maxInner
  have hstep := C21_tcg_step hH.1 hP hM hDelta hg hres
  -- the loop never leaves by the first test
  have key : ∀ (n j : Nat) (K : Submodule ℝ E) (s : CG E), CGInv L M K s → s.r ≠ 0 →
      ∀ e t, tcg L n j s = some (e, t) → t ≠ .negCurv ∧ t ≠ .excRegion ∧ t ≠ .min := by
    intro n
    induction n with
    | zero => intro j K s _ _ e t ht; cases ht; decide
    | succ n ih =>
      intro j K s hi hr e t ht
      have hz := hi.zr_pos hP hr
      have hDpos := hpos _ (hi.delta_ne hP hr)
      have hins := inside_newton hH hP hM hw (Module.finrank ℝ E) K s hi hr (Nat.le_add_left _ _)
      simp only [tcg] at ht
      rw [if_neg (by push Not; exact ⟨hDpos, lt_of_le_of_lt hins hin⟩)] at ht
      split at ht
      · cases ht; decide
      · split at ht
        · cases ht
          unfold Local.conv
          split <;> decide
        · rename_i hconv
          rw [if_neg hz.ne'] at ht
          have hinv := hi.step hH.1 hP hM hDpos hz (cgMove L s (s.zr / ⟪s.delta, L.H s.delta⟫)).modelv
          refine ih (j + 1) _ _ hinv ?_ e t ht
          intro hr0
          apply hconv
          refine ⟨by omega, ?_⟩
          have : (cgMove L s (s.zr / ⟪s.delta, L.H s.delta⟫)).r = 0 := hr0
          rw [this, norm_zero]
          exact tol_nonneg hk.ge
  have hst := key maxInner 0 ⊥ L.start (start_inv L M hM) hg eta st hres
  have hconv : st = .lCon ∨ st = .sCon := by
    have h1 := hstep.2.2.2.2.1
    have h2 : st ≠ .maxIter := by rintro rfl; exact hpass.2 eta hres
    cases st <;> simp_all
  refine ⟨st, ?_, hconv⟩
  have hr := (C21_converged_residual hH.1 hP hM hDelta hg hres hconv).1
  rw [hk, zero_mul] at hr
  have h0 : L.g + L.H eta = 0 := norm_le_zero_iff.mp hr
  have h2 : L.H (w - eta) = 0 := by
    have e : L.g + L.H w = L.g + L.H eta := by rw [hw, h0]
    rw [map_sub, add_left_cancel e, sub_self]
  have h3 : w = eta := by
    by_contra hne
    have := hpos _ (sub_ne_zero.mpr hne)
    rw [h2, inner_zero_right] at this
    exact lt_irrefl _ this
  rw [hres, h3]

end

/-! ## The outer loop on a quadratic function -/

section
variable {V : Type} [NormedAddCommGroup V] [InnerProductSpace ℝ V]

/-- The problem is the quadratic function `<x, A x> / 2 - <b, x>` on a Euclidean space, with its gradient and
Hessian and the addition as retraction. -/
structure IsQuadratic (p : Prob V (fun _ => V)) (A : V →ₗ[ℝ] V) (b : V) : Prop where
  sym : IsSym A
  f : ∀ x, p.f x = ⟪x, A x⟫ / 2 - ⟪b, x⟫
  g : ∀ x, p.g x = A x - b
  H : ∀ x, p.H x = A
  retr : ∀ x v, p.retr x v = x + v

variable {p : Prob V (fun _ => V)} {A M : V →ₗ[ℝ] V} {b : V}

theorem IsQuadratic.change (q : IsQuadratic p A b) (x v : V) :
    p.f (x + v) - p.f x = ⟪v, p.g x⟫ + 1 / 2 * ⟪v, A v⟫ := by
  have h1 : ⟪x, A v⟫ = ⟪A x, v⟫ := (q.sym x v).symm
  have h2 : ⟪v, A x⟫ = ⟪A x, v⟫ := real_inner_comm _ _
  have h3 : ⟪v, b⟫ = ⟪b, v⟫ := real_inner_comm _ _
  simp only [q.f, q.g, map_add, inner_add_left, inner_add_right, inner_sub_right, h1, h2, h3]
  ring

/-- What holds of the parameters of the inner solver. -/
structure Inner (p : Prob V (fun _ => V)) (M : V → V →ₗ[ℝ] V) : Prop where
  spd : ∀ x, IsSPD (p.P x)
  inv : ∀ x, Inverse (p.P x) (M x)
  kappa : 0 ≤ p.kappa
  minInner : p.minInner = 0
  maxInner : 0 < p.maxInner

/-- **C168.** On a quadratic function, convex or not, the trial point of the trust-region Newton solver has the
value that the model predicts, a lower value than the iterate, and the ratio that decides on it is exactly one. -/
theorem C168_ratio {Mx : V → V →ₗ[ℝ] V} (q : IsQuadratic p A b) (I : Inner p Mx) (x : V) (Delta : ℝ) (hD : 0 < Delta)
    (hg : A x ≠ b) :
    (p.cand x Delta).finite = true ∧ p.f (p.cand x Delta).x2 < p.f x ∧
      TRRun.ratio (p.f x) (p.f (p.cand x Delta).x2) (p.cand x Delta) = .num 1 := by
  have hg' : (p.local x Delta).g ≠ 0 := by
    show p.g x ≠ 0
    rw [q.g]; exact sub_ne_zero.mpr hg
  have hH : IsSym (p.local x Delta).H := by
    show IsSym (p.H x)
    rw [q.H]; exact q.sym
  obtain ⟨⟨eta, st⟩, hres⟩ := C21_tcg_no_breakdown (L := p.local x Delta) hH (I.spd x) (I.inv x) hD hg' I.minInner
    I.kappa p.maxInner
  have hstep := (C21_tcg_step (L := p.local x Delta) hH (I.spd x) (I.inv x) hD hg' hres).2.2.1 I.maxInner
  have hneg : ⟪eta, p.g x⟫ + 1 / 2 * ⟪eta, A eta⟫ < 0 := by
    have : (p.local x Delta).H = A := q.H x
    rw [this] at hstep
    exact hstep
  have hm : ⟪eta, p.g x + (1 / 2 : ℝ) • p.H x eta⟫ = ⟪eta, p.g x⟫ + 1 / 2 * ⟪eta, A eta⟫ := by
    rw [inner_add_right, inner_smul_right, q.H]
  have hc : p.cand x Delta = ⟨p.retr x eta, ⟪eta, p.g x + (1 / 2 : ℝ) • p.H x eta⟫, st, true, .nan⟩ := by
    unfold Prob.cand
    rw [hres]
  have hch := q.change x eta
  rw [hc]
  refine ⟨rfl, ?_, ?_⟩
  · show p.f (p.retr x eta) < p.f x
    rw [q.retr]; linarith
  · show (if ⟪eta, p.g x + (1 / 2 : ℝ) • p.H x eta⟫ = 0 then _ else
      TRRun.Ratio.num ((p.f x - p.f (p.retr x eta)) / (-⟪eta, p.g x + (1 / 2 : ℝ) • p.H x eta⟫))) = _
    rw [hm, if_neg hneg.ne, q.retr]
    congr 1
    rw [div_eq_one_iff_eq (by linarith)]
    linarith

/-- The radius after a ratio of one. -/
theorem radius_one (C : TRRun.Cfg ℝ) (st : Status) (acc : Bool) (D : ℝ) (hD : 0 < D) (hmag : 1 ≤ C.magnified) :
    ∃ D', TRRun.radius C (.num 1) st acc D = some D' ∧ min D C.maximumDelta ≤ D' := by
  have h1 : (TRRun.Ratio.num (1 : ℝ)).gt (3 / 4) = true := by
    simp only [TRRun.Ratio.gt, decide_eq_true_eq]; norm_num
  unfold TRRun.radius
  rw [if_pos h1]
  refine ⟨_, rfl, ?_⟩
  have : D ≤ D * C.magnified := le_mul_of_one_le_right hD.le hmag
  split <;> split
  · exact min_le_right _ _
  · exact (min_le_left _ _).trans this
  · exact min_le_right _ _
  · exact min_le_left _ _

/-- A pass accepts its trial point. -/
theorem pass_quadratic {Mx : V → V →ₗ[ℝ] V} (q : IsQuadratic p A b) (I : Inner p Mx) (C : TRRun.Cfg ℝ)
    (hrho : C.acceptRho < 1) (hmag : 1 ≤ C.magnified) (s : TRRun.St ℝ V) (hf : s.f1 = p.f s.x1) (hD : 0 < s.Delta)
    (hg : A s.x1 ≠ b) :
    ∃ D', min s.Delta C.maximumDelta ≤ D' ∧
      TRRun.pass C p.env s = (s.accept p.env (p.cand s.x1 s.Delta).x2 D').writeHist C := by
  obtain ⟨c1, c2, c3⟩ := C168_ratio q I s.x1 s.Delta hD hg
  obtain ⟨D', hD', hmin⟩ := radius_one C (p.cand s.x1 s.Delta).status
    (TRRun.accurate C (p.env.ngf p.env.x0) s.ngf1) s.Delta hD hmag
  have hacc : ∀ st acc f1 f2, TRRun.accepts C (.num 1) st acc f1 f2 = true := by
    intro st acc f1 f2
    simp [TRRun.accepts, TRRun.Ratio.gt, hrho]
  refine ⟨D', hmin, ?_⟩
  have e1 : p.env.cand s.iter s.x1 s.Delta = p.cand s.x1 s.Delta := rfl
  have e2 : p.env.f = p.f := rfl
  simp only [TRRun.pass, e1, e2, c1, Bool.not_true, Bool.false_eq_true, if_false, hf, c3, hD', hacc, if_true]

/-- **C168.** On a quadratic function no trial point is ever rejected and the radius never falls below the smaller
of its initial value and its upper bound: in every state of every run whose iterates so far have nonzero
gradient. -/
theorem C168_never_rejects {Mx : V → V →ₗ[ℝ] V} (q : IsQuadratic p A b) (I : Inner p Mx) (C : TRRun.Cfg ℝ)
    (hrho : C.acceptRho < 1) (hmag : 1 ≤ C.magnified) (h0 : 0 < C.initialDelta) (hmax : 0 < C.maximumDelta)
    {s : TRRun.St ℝ V} (h : TRRun.Reaches C p.env s) (hg : ∀ x ∈ s.xs.tail, A x ≠ b) :
    s.streak = 0 ∧ min C.initialDelta C.maximumDelta ≤ s.Delta ∧
      s.xs.Pairwise (fun new old => p.f new < p.f old) := by
  induction h with
  | init => exact ⟨rfl, min_le_left _ _, by simp [TRRun.St.init]⟩
  | @step s s' hr _ hp ih =>
    obtain ⟨b1, -, b3, -, -⟩ := TRRun.reaches_basic hr
    obtain ⟨t, ht⟩ : ∃ t, s.xs = s.x1 :: t := by
      cases hx : s.xs with
      | nil => rw [hx] at b3; cases b3
      | cons a t => rw [hx] at b3; cases b3; exact ⟨t, rfl⟩
    -- the newest iterate of `s` and all older ones are among the older ones of `s'`
    have hsub : ∀ x ∈ s.xs, x ∈ s'.xs.tail := by
      intro x hx
      obtain ⟨D, -, ⟨-, hw⟩ | ⟨-, hw⟩⟩ := TRRun.pass_next hp
      · rw [(TRRun.writeHist_next hw).2.2.2.2.2.2.2.1]; exact hx
      · rw [(TRRun.writeHist_next hw).2.2.2.2.2.2.2.1]; exact hx
    obtain ⟨-, i2, i3⟩ := ih (fun x hx => hg x (hsub x (List.mem_of_mem_tail hx)))
    have hx1 : A s.x1 ≠ b := hg _ (hsub _ (by rw [ht]; exact List.mem_cons_self))
    have hDpos : 0 < s.Delta := lt_of_lt_of_le (lt_min h0 hmax) i2
    obtain ⟨-, c2, -⟩ := C168_ratio q I s.x1 s.Delta hDpos hx1
    obtain ⟨D', hmin, hpass⟩ := pass_quadratic q I C hrho hmag s b1 hDpos hx1
    rw [hpass] at hp
    obtain ⟨-, -, -, -, -, -, w7, w8, w9, -⟩ := TRRun.writeHist_next hp
    refine ⟨w9, ?_, ?_⟩
    · rw [w7]
      exact (le_min i2 (min_le_right _ _)).trans hmin
    · rw [w8]
      show List.Pairwise _ ((p.cand s.x1 s.Delta).x2 :: s.xs)
      rw [List.pairwise_cons]
      refine ⟨fun y hy => ?_, i3⟩
      rw [ht] at hy i3
      rcases List.mem_cons.mp hy with rfl | hy
      · exact c2
      · exact c2.trans ((List.pairwise_cons.mp i3).1 y hy)

/-- **C168.** With `kappa = 0`, a positive definite Hessian and the solution inside the initial region, the first trial
point is the solution, and it is accepted. -/
theorem C168_one_iteration [FiniteDimensional ℝ V] {Mx : V → V →ₗ[ℝ] V} (q : IsQuadratic p A b) (I : Inner p Mx)
    (hA : IsSPD A) (hk : p.kappa = 0) (hdim : Module.finrank ℝ V ≤ p.maxInner) (C : TRRun.Cfg ℝ)
    (hrho : C.acceptRho < 1) (hmag : 1 ≤ C.magnified) (h0 : 0 < C.initialDelta) (hg : A p.x0 ≠ b) (w : V) (hw : A w = b)
    (hin : ⟪w - p.x0, Mx p.x0 (w - p.x0)⟫ < C.initialDelta * C.initialDelta) :
    ∃ D, TRRun.pass C p.env (TRRun.St.init C p.env) = ((TRRun.St.init C p.env).accept p.env w D).writeHist C := by
  have hg' : (p.local p.x0 C.initialDelta).g ≠ 0 := by
    show p.g p.x0 ≠ 0
    rw [q.g]; exact sub_ne_zero.mpr hg
  have hH : (p.local p.x0 C.initialDelta).H = A := q.H _
  obtain ⟨st, hres, -⟩ := C167_newton_step (L := p.local p.x0 C.initialDelta) (hH ▸ hA) (I.spd _) (I.inv _) h0 hg'
    I.minInner hk (w := w - p.x0) (by
      rw [hH]
      show p.g p.x0 + _ = 0
      rw [q.g, map_sub, hw]; abel) hin p.maxInner hdim
  have hx2 : (p.cand p.x0 C.initialDelta).x2 = w := by
    unfold Prob.cand
    rw [hres]
    show p.retr p.x0 (w - p.x0) = w
    rw [q.retr]; abel
  obtain ⟨D, -, hp⟩ := pass_quadratic q I C hrho hmag (TRRun.St.init C p.env) rfl h0 hg
  refine ⟨D, ?_⟩
  rw [hp]
  show ((TRRun.St.init C p.env).accept p.env (p.cand p.x0 C.initialDelta).x2 D).writeHist C = _
  rw [hx2]

end

/-! ## Concrete cases -/

/-- A quadratic function on the line with the identity as preconditioner. -/
noncomputable def quadLine (a kappa : ℝ) : Prob ℝ (fun _ => ℝ) where
  f x := x * (a * x) / 2 - 3 * x
  g x := a * x - 3
  H _ := a • LinearMap.id
  P _ := LinearMap.id
  retr x v := x + v
  x0 := 1
  theta := 1
  kappa := kappa
  minInner := 0
  maxInner := 5
  stopped0 := false
  stopped _ _ _ := false

theorem quadLine_quadratic (a kappa : ℝ) : IsQuadratic (quadLine a kappa) (a • LinearMap.id) 3 where
  sym u v := by simp; ring
  f x := by simp [quadLine]; ring
  g x := by simp [quadLine]
  H x := rfl
  retr x v := rfl

theorem quadLine_inner (a : ℝ) {kappa : ℝ} (hk : 0 ≤ kappa) : Inner (quadLine a kappa) (fun _ => LinearMap.id) where
  spd x := by
    refine ⟨fun u v => rfl, fun v hv => ?_⟩
    exact real_inner_self_pos.mpr hv
  inv x := ⟨fun v => rfl, fun v => rfl⟩
  kappa := hk
  minInner := rfl
  maxInner := by norm_num [quadLine]

/-- A concave function: no trial point of the run is rejected as long as the gradient is nonzero. -/
example (C : TRRun.Cfg ℝ) (hrho : C.acceptRho < 1) (hmag : 1 ≤ C.magnified) (h0 : 0 < C.initialDelta)
    (hmax : 0 < C.maximumDelta) {s : TRRun.St ℝ ℝ} (h : TRRun.Reaches C (quadLine (-2) (1 / 10)).env s)
    (hg : ∀ x ∈ s.xs.tail, ((-2 : ℝ) • (LinearMap.id : ℝ →ₗ[ℝ] ℝ)) x ≠ 3) : s.streak = 0 :=
  (C168_never_rejects (quadLine_quadratic _ _) (quadLine_inner (-2) (by norm_num)) C hrho hmag h0 hmax h hg).1

/-- A convex one: one iteration. -/
example (C : TRRun.Cfg ℝ) (hrho : C.acceptRho < 1) (hmag : 1 ≤ C.magnified) (h0 : C.initialDelta = 1) :
    ∃ D, TRRun.pass C (quadLine 2 0).env (TRRun.St.init C (quadLine 2 0).env) =
      ((TRRun.St.init C (quadLine 2 0).env).accept (quadLine 2 0).env (3 / 2) D).writeHist C := by
  refine C168_one_iteration (quadLine_quadratic 2 0) (quadLine_inner 2 le_rfl) ?_ rfl (by simp [quadLine]) C hrho hmag
    (by rw [h0]; norm_num) (by norm_num [quadLine]) (3 / 2) (by norm_num) (by rw [h0]; norm_num [quadLine])
  refine ⟨(quadLine_quadratic 2 0).sym, fun v hv => ?_⟩
  have := mul_self_pos.mpr hv
  simp; nlinarith

/-- The inner solver on the line makes at most one pass, also when the Hessian is negative. -/
example (m : Nat) (hm : 1 ≤ m) (eta : ℝ) : tCG ⟨1, -LinearMap.id, LinearMap.id, 1, 1, 1 / 10, 0⟩ m
    ≠ some (eta, .maxIter) := by
  refine (C167_passes (L := ⟨1, -LinearMap.id, LinearMap.id, 1, 1, 1 / 10, 0⟩) (M := LinearMap.id) ?_ ?_ ⟨fun v => rfl, fun v => rfl⟩
    (by norm_num) rfl (by norm_num) m (by simpa using hm)).2 eta
  · intro u v; simp
  · exact ⟨fun u v => rfl, fun v hv => real_inner_self_pos.mpr hv⟩

end Verif.TR
